import Verif.Proofs.Completes
import Verif.Proofs.SpacedCalls
import Verif.Proofs.Outcome
import Verif.Props.Samples

/-
C46: the position of a parse error.
-/

namespace Treerack.Spec

/-- When a definition is checked for keywords, then the keywords are texts. -/
def CheckedForTexts (cs : List Call) : Prop :=
  ∀ c ∈ cs, c.commit.noKeyword = true → ∀ k ∈ cs, k.commit.keyword = true → k.isText = true

instance (cs : List Call) : Decidable (CheckedForTexts cs) := by unfold CheckedForTexts; exact inferInstance

end Treerack.Spec

namespace Treerack
open Spec Samples

/-- The parsers of definitions that are checked for keywords. -/
theorem wsParsers_texts {cs : List Call} {s' : Syntax} {root : Ptr} {f : Ptr → Part Name} (W : WsParsers cs s' root f)
    (hkw : CheckedForTexts cs) (p : Ptr) (d : PDef) (hr : Reach s'.env root p) (hd : s'.env.defs[p]? = some d)
    (hn : d.commit.noKeyword = true) (k : Ptr) (hk : k ∈ s'.env.keywords) : TextParser s'.env k := by
  have hch := (W.flag hr hd).1 hn
  obtain ⟨a, ha, hak⟩ : ∃ a ∈ cs, a.commit.noKeyword = true := by
    generalize f p = x at hch
    cases x with
    | given n => obtain ⟨-, a, k1, -, k2⟩ := hch; exact ⟨a, k1, k2⟩
    | body => obtain ⟨a, k1, -, k2⟩ := hch; exact ⟨a, k1, k2⟩
    | space => exact hch.elim
    | rest => exact hch.elim
    | several => exact hch.elim
  obtain ⟨k', hk', hkk, hkn⟩ := W.keyword hk
  exact W.text hk hk' hkk hkn (hkw a ha hak k' hk' hkk)

theorem plainParsers_texts {cs : List Call} {s' : Syntax} {root : Ptr} (P : PlainParsers cs s' root)
    (hkw : CheckedForTexts cs) (p : Ptr) (d : PDef) (hr : Reach s'.env root p) (hd : s'.env.defs[p]? = some d)
    (hn : d.commit.noKeyword = true) (k : Ptr) (hk : k ∈ s'.env.keywords) : TextParser s'.env k := by
  obtain ⟨a, ha, -, hak⟩ := (P.flag hr hd).1 hn
  obtain ⟨k', hk', hkk, hkn⟩ := P.keyword hk
  exact P.text hk hk' hkn (hkw a ha hak k' hk' hkk)

/-- C46, without whitespace: the part of the input before the position of a parse error is the beginning of a text, as far as a
reader can get from the root. -/
theorem C46_position_partial {cs : List Call} {s s' : Syntax} {fuel : Nat} {input : List Rune} {rend : Option Nat} {o l c : Nat}
    {n root : Name} (h : Made cs s) (hnw : ∀ c ∈ cs, c.commit.whitespace = false) (hkw : CheckedForTexts cs)
    (hroot : rootOf cs = some root) (hp : s.Parse fuel input rend = .ok (s', .error (.parseError o l c n))) :
    Begins (grammarOf cs) input root 0 o := by
  rcases Parse_cases hp with ⟨e, -, hx⟩ | ⟨r, y, h1, h2, h3, hx⟩
  · cases hx
  cases y with
  | ok t => cases hx
  | error e =>
    cases hx
    obtain ⟨r', P⟩ := calls_plain h h1 hnw
    have := P.rootEq
    rw [h2] at this; cases this
    have hb := parseInput_begins P.linked (plainParsers_texts P hkw) h3
    have := Morphism.begins P.morphism hb .root
    have hr := P.rootName
    rw [hroot] at hr
    rw [Option.some.inj hr]
    exact this

/-- C46, with whitespace: the reader goes through the definitions with the whitespace in between. -/
theorem C46_position_ws_partial {cs : List Call} {s s' : Syntax} {fuel : Nat} {input : List Rune} {rend : Option Nat} {o l c : Nat}
    {n root : Name} (h : Made cs s) (hws : ∃ c ∈ cs, c.commit.whitespace = true) (hnames : PlainNames cs) (htight : TightKeywords cs)
    (hkw : CheckedForTexts cs) (hroot : rootOf cs = some root)
    (hp : s.Parse fuel input rend = .ok (s', .error (.parseError o l c n))) :
    Begins (spaced (wgrammarOf cs)) input (.given root) 0 o := by
  rcases Parse_cases hp with ⟨e, -, hx⟩ | ⟨r, y, h1, h2, h3, hx⟩
  · cases hx
  cases y with
  | ok t => cases hx
  | error e =>
    cases hx
    obtain ⟨r', f, W⟩ := calls_ws h h1 hws hnames htight
    have := W.understood.rootEq
    rw [h2] at this; cases this
    have hb := parseInput_begins W.understood.linked (wsParsers_texts W hkw) h3
    have := Morphism.begins W.morphism hb .root
    rw [W.root_] at this
    have hr := W.rootName
    rw [hroot] at hr
    rw [Option.some.inj hr]
    exact (relabeled _ _).symm.begins this

/-- C46: when every definition derives a text, then the part of the input before the position of a parse error can be completed
to a text of the root. -/
theorem C46_prefix_partial {cs : List Call} {s s' : Syntax} {fuel : Nat} {input : List Rune} {rend : Option Nat} {o l c : Nat}
    {n root : Name} (h : Made cs s) (hsafe : WsSafe cs) (hkw : CheckedForTexts cs)
    (hlive : ∀ m d, grammarOf cs m = some d → Lives (grammarOf cs) m) (hroot : rootOf cs = some root)
    (hp : s.Parse fuel input rend = .ok (s', .error (.parseError o l c n))) :
    o ≤ input.length ∧ ∃ rest, WDerives (wgrammarOf cs) (input.take o ++ rest) root 0 (o + rest.length) := by
  rcases Parse_cases hp with ⟨e, -, hx⟩ | ⟨r, y, h1, h2, h3, hx⟩
  · cases hx
  cases y with
  | ok t => cases hx
  | error e =>
    cases hx
    obtain ⟨r', U⟩ := understood h hsafe h1
    have := U.rootEq
    rw [h2] at this; cases this
    obtain ⟨d, hd, hdn⟩ := U.rootDef
    rw [hroot] at hdn
    have hdn := Option.some.inj hdn
    have hrc := rootOf_call hroot
    have fin : Begins s'.env.grammar input r 0 o → (∀ p, Reach s'.env r p → Lives s'.env.grammar p) →
        o ≤ input.length ∧ ∃ rest, WDerives (wgrammarOf cs) (input.take o ++ rest) root 0 (o + rest.length) := by
      intro hb hl
      have ho : o ≤ input.length := by have := hb.bounds; omega
      obtain ⟨w, hw⟩ := hb.completes (R := Reach s'.env r) hl (fun p gd hp hg x hx => by
        cases he : gd.expr with
        | char => rw [he] at hx; cases hx
        | choice os => rw [he] at hx; exact Reach.option hp hg he hx
        | seq its =>
          rw [he] at hx
          obtain ⟨y, hy, rfl⟩ := List.mem_map.1 hx
          exact Reach.item hp hg he hy) .root ho
      refine ⟨ho, w, ?_⟩
      rw [hdn]
      exact (U.derives r d _ _ _ .root hd (by rw [← hdn]; obtain ⟨c, h1, h2⟩ := hrc; exact ⟨c, h1, h2⟩)).1 hw
    by_cases hws : ∃ c ∈ cs, c.commit.whitespace = true
    · obtain ⟨r', f, W⟩ := calls_ws h h1 hws (hsafe hws).1 (hsafe hws).2
      have := W.understood.rootEq
      rw [h2] at this; cases this
      exact fin (parseInput_begins W.understood.linked (wsParsers_texts W hkw) h3) fun p hp => ws_lives W hws hlive hp
    · obtain ⟨r', P⟩ := calls_plain h h1 fun c hc => by
        cases hw : c.commit.whitespace with
        | false => rfl
        | true => exact absurd ⟨c, hc, hw⟩ hws
      have := P.rootEq
      rw [h2] at this; cases this
      exact fin (parseInput_begins P.linked (plainParsers_texts P hkw) h3) fun p hp => plain_lives P hlive hp

/-! ### Checking that every definition derives a text -/

/-- Does the class have one of the characters? -/
def someChar (neg : Bool) (chars : List Rune) (ranges : List (Rune × Rune)) : Bool :=
  (chars ++ ranges.map Prod.fst ++ [0, 1000000]).any fun t => decide ((t ∈ chars ∨ ∃ r ∈ ranges, r.1 ≤ t ∧ t ≤ r.2) ↔ neg = false)

def liveExpr (live : List Name) : Expr Name → Bool
  | .char neg chars ranges => someChar neg chars ranges
  | .choice os => os.any live.contains
  | .seq items => items.all fun x => live.contains x.1

/-- The definitions that derive a text with at most `k` levels of definitions. -/
def liveAt (cs : List Call) : Nat → List Name
  | 0 => []
  | k + 1 => ((cs.flatMap Call.defs).map Prod.fst).filter fun n =>
      match grammarOf cs n with
      | some d => liveExpr (liveAt cs k) d.expr
      | none => false

theorem liveAt_lives {cs : List Call} : ∀ {k : Nat} {n : Name}, n ∈ liveAt cs k → Lives (grammarOf cs) n
  | 0, n, h => by cases h
  | k + 1, n, h => by
    simp only [liveAt, List.mem_filter] at h
    obtain ⟨-, h⟩ := h
    cases hg : grammarOf cs n with
    | none => rw [hg] at h; cases h
    | some d =>
      rw [hg] at h
      simp only at h
      cases he : d.expr with
      | char neg chars ranges =>
        rw [he] at h
        simp only [liveExpr, someChar, List.any_eq_true, decide_eq_true_eq] at h
        obtain ⟨t, -, ht⟩ := h
        exact ⟨[t], .char hg he (by simp) ht⟩
      | choice os =>
        rw [he] at h
        simp only [liveExpr, List.any_eq_true] at h
        obtain ⟨o, h1, h2⟩ := h
        exact .choice hg he h1 (liveAt_lives (k := k) (by simpa using h2))
      | seq items =>
        rw [he] at h
        simp only [liveExpr, List.all_eq_true] at h
        exact .seq hg he fun x hx => liveAt_lives (k := k) (by simpa using h x hx)

theorem lives_of {cs : List Call} (k : Nat) (h : ((cs.flatMap Call.defs).all fun x => (liveAt cs k).contains x.1) = true) :
    ∀ m d, grammarOf cs m = some d → Lives (grammarOf cs) m := by
  intro m d hg
  have := List.all_eq_true.1 h _ (List.mem_flatMap.2 (grammarOf_mem hg))
  exact liveAt_lives (by simpa using this)

/-! ### Examples -/

/-- The assumptions are met, and the position is where the input cannot be continued. -/
example : Made sumCalls (after sumCalls) ∧ (∀ c ∈ sumCalls, c.commit.whitespace = false) ∧ CheckedForTexts sumCalls ∧
    (∀ m d, grammarOf sumCalls m = some d → Lives (grammarOf sumCalls) m) ∧
    error (run sumCalls 50 (runes "1+2+x")) = some (.parseError 4 0 4 (runes "digit")) :=
  ⟨calls_made (calls_ok (by decide +kernel)), by decide +kernel, by decide +kernel, lives_of 10 (by decide +kernel), by decide +kernel⟩

example : Made sumWsCalls (after sumWsCalls) ∧ WsSafe sumWsCalls ∧ CheckedForTexts sumWsCalls ∧
    (∀ m d, grammarOf sumWsCalls m = some d → Lives (grammarOf sumWsCalls) m) ∧
    error (run sumWsCalls 50 (runes "1 + x")) = some (.parseError 4 0 4 (runes "digit")) := by
  refine ⟨calls_made (calls_ok (by decide +kernel)), fun _ => ⟨Or.inl ?_, ?_⟩, by decide +kernel, lives_of 10 (by decide +kernel),
    by decide +kernel⟩
  · have : sumWsCalls.all (fun c => !c.name.contains colon && c.refs.all fun n => !n.contains colon) = true := by decide +kernel
    intro c hc
    have := List.all_eq_true.1 this c hc
    simp only [Bool.and_eq_true, Bool.not_eq_true', List.all_eq_true] at this
    exact ⟨by simpa [NoColon] using this.1, fun n hn => by simpa [NoColon] using this.2 n hn⟩
  · have : sumWsCalls.all (fun c => !c.commit.keyword) = true := by decide +kernel
    intro c hc hk
    have := List.all_eq_true.1 this c hc
    simp [hk] at this

/-! ### Keywords that are not texts -/

/-- `letter:alias = [a-z]; ab:alias = "ab"; cd:alias = "cd"; kw0:kw = ab; kw1:kw = ab cd; two:nokw = letter{2}; one:nokw = letter;
r:root = two | one` -/
def kwPositionCalls : List Call := [
  .class_ (runes "letter") { alias := true } false [] [(97, 122)],
  .charSequence (runes "ab") { alias := true } (runes "ab"),
  .charSequence (runes "cd") { alias := true } (runes "cd"),
  .sequence (runes "kw0") { keyword := true } [item "ab"],
  .sequence (runes "kw1") { keyword := true } [item "ab", item "cd"],
  .sequence (runes "two") { noKeyword := true } [{ name := runes "letter", min := 2, max := 2 }],
  .sequence (runes "one") { noKeyword := true } [item "letter"],
  .choice (runes "r") { root := true } [runes "two", runes "one"]]

theorem times_length {N : Type} {G : Grammar N} {u : List Rune} {n : N} {b : Nat} (h : ∀ i j, Derives G u n i j → j ≤ i + b) :
    ∀ {k i j : Nat}, DerivesTimes G u n k i j → j ≤ i + k * b
  | _, _, _, .zero => by omega
  | _, _, _, .succ (k := k) h1 h2 => by
    have := times_length h h1
    have := h _ _ h2
    rw [Nat.add_mul, Nat.one_mul]
    omega

theorem item_length {N : Type} {G : Grammar N} {u : List Rune} {n x : N} {d : GDef N} {m : Nat} {b : Nat} (hg : G n = some d)
    (he : d.expr = .seq [(x, (m : Int), (m : Int))]) (h : ∀ i j, Derives G u x i j → j ≤ i + b) (hm : 0 < m) (i j : Nat)
    (hd : Derives G u n i j) : j ≤ i + m * b := by
  cases hd with
  | char k1 k2 => rw [hg] at k1; cases k1; rw [he] at k2; cases k2
  | choice k1 k2 => rw [hg] at k1; cases k1; rw [he] at k2; cases k2
  | seq k1 k2 k3 =>
    rw [hg] at k1; cases k1
    rw [he] at k2; cases k2
    cases k3 with
    | cons t1 t2 t3 =>
      cases t3
      rename_i k
      have hk : k = m := by unfold InRange at t2; omega
      subst hk
      exact times_length h t1

/-- C46 is not true when the keywords are not texts: the texts of `r` have one or two letters, but the error is at the third one,
where the check of `one` was looking for the second part of a keyword, from a result that another check had left behind. -/
theorem C46_keyword_counterexample : Made kwPositionCalls (after kwPositionCalls) ∧
    (∀ c ∈ kwPositionCalls, c.commit.whitespace = false) ∧
    (∀ m d, grammarOf kwPositionCalls m = some d → Lives (grammarOf kwPositionCalls) m) ∧
    error (run kwPositionCalls 50 (runes "abcx")) = some (.parseError 3 0 3 (runes "cd")) ∧
    (∀ text j, Derives (grammarOf kwPositionCalls) text (runes "r") 0 j → j ≤ 2) ∧
    ¬ Begins (grammarOf kwPositionCalls) (runes "abcx") (runes "r") 0 3 := by
  have hl : ∀ m d, grammarOf kwPositionCalls m = some d → Lives (grammarOf kwPositionCalls) m := lives_of 10 (by decide +kernel)
  have hm : Made kwPositionCalls (after kwPositionCalls) := calls_made (calls_ok (by decide +kernel))
  have hlong : ∀ text j, Derives (grammarOf kwPositionCalls) text (runes "r") 0 j → j ≤ 2 := by
    intro text j h
    have g0 := call_grammar hm (c := .class_ (runes "letter") { alias := true } false [] [(97, 122)]) (by decide +kernel)
      (x := (runes "letter:0", _)) List.mem_cons_self
    have g1 := call_grammar hm (c := .class_ (runes "letter") { alias := true } false [] [(97, 122)]) (by decide +kernel)
      (x := (runes "letter", _)) (List.mem_cons_of_mem _ List.mem_cons_self)
    have g2 := call_grammar hm (c := .sequence (runes "two") { noKeyword := true } [{ name := runes "letter", min := 2, max := 2 }])
      (by decide +kernel) (x := (runes "two", _)) List.mem_cons_self
    have g3 := call_grammar hm (c := .sequence (runes "one") { noKeyword := true } [item "letter"])
      (by decide +kernel) (x := (runes "one", _)) List.mem_cons_self
    have g4 := call_grammar hm (c := .choice (runes "r") { root := true } [runes "two", runes "one"])
      (by decide +kernel) (x := (runes "r", _)) List.mem_cons_self
    have l0 : ∀ i j, Derives (grammarOf kwPositionCalls) text (runes "letter:0") i j → j ≤ i + 1 := by
      intro i j h
      cases h with
      | char => exact Nat.le_refl _
      | choice k1 k2 => rw [g0] at k1; cases k1; cases k2
      | seq k1 k2 => rw [g0] at k1; cases k1; cases k2
    have l1 := item_length (m := 1) g1 rfl l0 (by decide)
    have l2 := item_length (m := 2) g2 rfl l1 (by decide)
    have l3 := item_length (m := 1) g3 rfl l1 (by decide)
    cases h with
    | char k1 k2 => rw [g4] at k1; cases k1; cases k2
    | seq k1 k2 => rw [g4] at k1; cases k1; cases k2
    | choice k1 k2 k3 k4 =>
      rw [g4] at k1; cases k1
      cases k2
      simp only [List.mem_cons, List.not_mem_nil, or_false] at k3
      rcases k3 with rfl | rfl
      · have := l2 _ _ k4; omega
      · have := l3 _ _ k4; omega
  refine ⟨hm, by decide +kernel, hl, by decide +kernel, hlong, fun hb => ?_⟩
  obtain ⟨w, hw⟩ := hb.completes (R := fun n => ∃ d, grammarOf kwPositionCalls n = some d) (fun n ⟨d, hd⟩ => hl n d hd) (fun n d _ hd x hx => by
      have := List.all_eq_true.1 (show ((kwPositionCalls.flatMap Call.defs).all fun y => y.2.expr.refs.all fun z =>
        (grammarOf kwPositionCalls z).isSome) = true by decide +kernel) _ (List.mem_flatMap.2 (grammarOf_mem hd))
      exact Option.isSome_iff_exists.1 (List.all_eq_true.1 this x hx))
    (Option.isSome_iff_exists.1 (by decide +kernel)) (by decide)
  have := hlong _ _ hw
  omega

end Treerack
