import Verif.Proofs.NoPanic
import Verif.Proofs.Outcome
import Verif.Proofs.Reader
import Verif.Props.Samples

/-
C01, C03, C11, C12, C13, C14, C38, C40, C41, C62: what Parse returns, for every syntax that can come about.

`History s`: the syntax `s` is the result of any sequence of definition calls, syntax documents read, Init calls
and Parse calls, whether they succeeded or not.  `s.Parse fuel input rend`: the reader delivers the characters `input` and then
io.EOF (`rend = none`) or the error number `k` (`rend = some k`).
-/

namespace Treerack
open Spec Samples

variable {s s' : Syntax} {fuel : Nat} {input : List Rune} {rend : Option Nat}

/-- C01: Parse returns, and with the same result for every large enough recursion budget. -/
theorem C01_termination (h : History s) (hi : s.Init = .ok (s', none)) (input : List Rune) (rend : Option Nat) :
    ∃ N result, result ≠ .oof ∧ ∀ n, N ≤ n → s.Parse n input rend = result :=
  Parse_terminates h hi input rend

/-- C62: the recursion budget that is needed, for the nesting of the calls and for the iterations of each loop, grows at most with
the square of the length of the input: `K` is the same for all inputs of the syntax. -/
theorem C62_budget (h : History s) (hi : s.Init = .ok (s', none)) :
    ∃ K, ∀ (input : List Rune) (rend : Option Nat) (n : Nat), K * (input.length + 1) ^ 2 ≤ n → s.Parse n input rend ≠ .oof :=
  Parse_budget h hi

/-- C62: for the parsing phase, without building the tree, it grows at most with the length of the input. -/
theorem C62_parsing {root : Ptr} (h : History s) (hi : s.Init = .ok (s', none)) (hr : s'.root = some root) :
    ∃ K, ∀ (input : List Rune) (rend : Option Nat) (n : Nat), K * (input.length + 1) ≤ n →
      parse s'.env n root (newContext input rend) ≠ .oof :=
  parse_budget h hi hr

/-- C62: the number of the recorded matches after the parsing phase grows at most with the square of the length of the input.  (The
calls of parsers keep the recorded matches, so it was not higher before.) -/
theorem C62_records {root : Ptr} (h : History s) (hi : s.Init = .ok (s', none)) (hr : s'.root = some root) :
    ∃ K, ∀ (input : List Rune) (rend : Option Nat) (n : Nat) (c : Ctx), parse s'.env n root (newContext input rend) = .ok c →
      (c.res.matches_.map fun es => es.countP fun e => decide (0 ≤ e.1)).sum ≤ K * (input.length + 1) ^ 2 :=
  parse_records h hi hr

/-- C01: Init returns, too. -/
theorem init_terminates (h : History s) : s.Init ≠ .oof := by
  intro ho
  have := Init_weak h.inv
  rw [ho] at this
  exact this

/-- C03: a tree is returned only for a complete input, up to io.EOF, and it spans the input. -/
theorem C03_complete {t : Node} (h : History s) (hp : s.Parse fuel input rend = .ok (s', .node t)) :
    rend = none ∧ t.from_ = 0 ∧ t.to = input.length ∧ t.tokens = input := by
  obtain ⟨root, -, T⟩ := Parse_outcome h hp
  obtain ⟨-, -, -, -, -, -, -, ht, -⟩ := T.nodes t .refl
  exact ⟨T.ended, T.from_, T.to, ht⟩

/-- C40: each node carries the complete input and a range in it, and its text is the part of the input
in that range. -/
theorem C40_text {t : Node} (h : History s) (hp : s.Parse fuel input rend = .ok (s', .node t)) (m : Node) (hm : Sub m t) :
    m.tokens = input ∧ m.from_ ≤ m.to ∧ m.to ≤ input.length ∧
      m.text = .ok ((input.drop m.from_).take (m.to - m.from_)) := by
  obtain ⟨root, -, T⟩ := Parse_outcome h hp
  obtain ⟨-, -, -, -, -, -, -, ht, h1, h2, -⟩ := T.nodes m hm
  refine ⟨ht, h1, h2, ?_⟩
  rw [Node.text, ht, if_pos ⟨h1, h2⟩, List.drop_take]

/-- C11: with a reader that ends with the error `k`, no tree is returned: the result is that error, or
an error that is returned for every other ending of the reader, too (the parser did not get there). -/
theorem C11_reader {k : Nat} {x : Syntax.ParseResult} (h : History s) (hi : s.Init = .ok (s', none))
    (hp : s.Parse fuel input (some k) = .ok (s', x)) :
    x = .error (.readErr k) ∨
    ∃ e, x = .error e ∧ ∀ r, s.Parse fuel input r = .ok (s', .error e) := by
  have ho := Parse_outcome h hp
  rcases Parse_cases hp with ⟨e, h1, rfl⟩ | ⟨root, y, h1, h2, h3, rfl⟩
  · rw [hi] at h1; cases h1
  · cases y with
    | ok n =>
      obtain ⟨_, _, T⟩ := ho
      exact absurd T.ended (by simp)
    | error e =>
      simp only
      rcases parseInput_reader h3 with rfl | h4
      · exact Or.inl rfl
      · refine Or.inr ⟨e, rfl, fun r => ?_⟩
        unfold Syntax.Parse
        rw [h1]
        simp only [Res.bind_ok, h2, h4 r]

/-- C11: only a reader error of the given reader is ever returned. -/
theorem C11_exact {k : Nat} (h : History s) (hp : s.Parse fuel input rend = .ok (s', .error (.readErr k))) :
    rend = some k := Parse_outcome h hp

/-- C12: an input with an invalid character is not accepted; the result is ErrInvalidUnicodeCharacter, a parse
error in front of the first invalid character, or the error of the reader.  (Partial: panics are not
excluded, see `C12_panic_counterexample`.) -/
theorem C12_invalid_partial {x : Syntax.ParseResult} (h : History s) (hi : s.Init = .ok (s', none))
    (hbad : replacementChar ∈ input) (hp : s.Parse fuel input rend = .ok (s', x)) :
    x = .error .invalidUnicode ∨ (∃ k, rend = some k ∧ x = .error (.readErr k)) ∨
    ∃ o l c n, x = .error (.parseError o l c n) ∧ replacementChar ∉ input.take o := by
  have ho := Parse_outcome h hp
  rcases Parse_cases hp with ⟨e, h1, rfl⟩ | ⟨root, y, h1, h2, h3, rfl⟩
  · rw [hi] at h1; cases h1
  · cases y with
    | ok n =>
      obtain ⟨_, _, T⟩ := ho
      exact absurd hbad T.valid
    | error e =>
      cases e with
      | parseError o l c n => exact Or.inr (Or.inr ⟨o, l, c, n, rfl, ho.clean⟩)
      | invalidUnicode => exact Or.inl rfl
      | readErr k => exact Or.inr (Or.inl ⟨k, ho, rfl⟩)

/-- C12: ErrInvalidUnicodeCharacter is only returned when there is an invalid character. -/
theorem C12_only (h : History s) (hp : s.Parse fuel input rend = .ok (s', .error .invalidUnicode)) :
    replacementChar ∈ input := Parse_outcome h hp

/-- C14: the position of a parse error. -/
theorem C14_position {o l c : Nat} {n : Name} (h : History s)
    (hp : s.Parse fuel input rend = .ok (s', .error (.parseError o l c n))) :
    o ≤ input.length ∧ l = lineOf input o ∧ c = columnOf input o := by
  have ho := Parse_outcome h hp
  exact ⟨ho.inside, ho.lineEq, ho.columnEq⟩

/-- Any number of Init and Parse calls. -/
inductive Reused : Syntax → Syntax → Prop
  | refl (s : Syntax) : Reused s s
  | init {s s1 s2 : Syntax} {e : Option SynErr} : Reused s s1 → s1.Init = .ok (s2, e) → Reused s s2
  | parse {s s1 s2 : Syntax} {fuel : Nat} {input : List Rune} {rend : Option Nat} {x : Syntax.ParseResult} :
      Reused s s1 → s1.Parse fuel input rend = .ok (s2, x) → Reused s s2

theorem Init_again {s s' : Syntax} {e : Option SynErr} (hi : s.Init = .ok (s', e)) :
    (e = none → s'.Init = .ok (s', none)) ∧ (e ≠ none → ∃ e', s'.Init = .ok (s', some e')) := by
  rw [Syntax.Init_eq] at hi
  split at hi
  · cases hi
    rename_i hf
    exact ⟨fun h => (by cases h), fun _ => ⟨_, by rw [Syntax.Init_eq, if_pos hf]⟩⟩
  · rename_i hf
    split at hi
    · cases hi
      rename_i hin
      exact ⟨fun _ => (by rw [Syntax.Init_eq, if_neg hf, if_pos hin]), fun h => absurd rfl h⟩
    · rename_i hin
      split at hi
      · cases hi
        rename_i hr
        exact ⟨fun h => (by cases h), fun _ => ⟨_, by rw [Syntax.Init_eq, if_neg hf, if_neg hin, hr]⟩⟩
      · rename_i root hr
        split at hi
        · cases hi
        · rename_i d hd
          split at hi
          · cases hi
            rename_i hc
            refine ⟨fun h => (by cases h), fun _ => ⟨.incompatibleCommit d.name, ?_⟩⟩
            rw [Syntax.Init_eq, if_neg hf, if_neg hin, hr]
            simp only [hd, hc, if_true]
          · obtain ⟨⟨s1, r1⟩, hp, hi⟩ := Res.bind_eq_ok hi
            cases e with
            | some e =>
              obtain ⟨k1, -⟩ := finishInit_error hi
              exact ⟨fun h => (by cases h), fun _ => ⟨_, by rw [Syntax.Init_eq, if_pos k1]⟩⟩
            | none =>
              refine ⟨fun _ => ?_, fun h => absurd rfl h⟩
              have hpf : s1.initFailed = s.initFailed := by
                unfold Syntax.prepare at hp
                simp only at hp
                split at hp
                · obtain ⟨⟨h4, defs, r⟩, -, hp⟩ := Res.bind_eq_ok hp
                  cases hp; rfl
                · cases hp; rfl
              unfold Syntax.finishInit at hi
              simp only at hi
              obtain ⟨⟨h1, e1⟩, -, hi⟩ := Res.bind_eq_ok hi
              cases e1 with
              | some e1 => cases hi
              | none =>
                simp only at hi
                obtain ⟨h2, -, hi⟩ := Res.bind_eq_ok hi
                cases hi
                rw [Syntax.Init_eq]
                have : ¬ s1.initFailed = true := by rw [hpf]; exact hf
                simp only [this]
                rfl

/-- C38: earlier Init and Parse calls have no influence on the result of a Parse call.  When the initialization of the
syntax succeeds, the result (tree, error, panic) is the same; when it fails, it fails again. -/
theorem C38_independent {s1 : Syntax} (hu : Reused s s1) (hi : s.Init = .ok (s', none)) (fuel : Nat) (input : List Rune)
    (rend : Option Nat) : s1.Parse fuel input rend = s.Parse fuel input rend := by
  have key : s1.Init = s.Init := by
    induction hu with
    | refl => rfl
    | init hu h ih =>
      rw [ih, hi] at h
      cases h
      rw [(Init_again hi).1 rfl, hi]
    | parse hu h ih =>
      obtain ⟨e, h⟩ := Parse_state h
      rw [ih, hi] at h
      cases h
      rw [(Init_again hi).1 rfl, hi]
  unfold Syntax.Parse
  rw [key]

theorem C38_failed {s1 : Syntax} {e : SynErr} (hu : Reused s s1) (hi : s.Init = .ok (s', some e)) (fuel : Nat)
    (input : List Rune) (rend : Option Nat) : ∃ s2 e', s1.Parse fuel input rend = .ok (s2, .syntaxError e') := by
  have key : ∃ s2 e', s1.Init = .ok (s2, some e') := by
    induction hu with
    | refl => exact ⟨s', e, hi⟩
    | init hu h ih =>
      obtain ⟨s2, e', ih⟩ := ih
      rw [ih] at h
      cases h
      obtain ⟨e2, h2⟩ := (Init_again ih).2 (by simp)
      exact ⟨_, e2, h2⟩
    | parse hu h ih =>
      obtain ⟨e1, h⟩ := Parse_state h
      obtain ⟨s2, e', ih⟩ := ih
      rw [ih] at h
      cases h
      obtain ⟨e2, h2⟩ := (Init_again ih).2 (by simp)
      exact ⟨_, e2, h2⟩
  obtain ⟨s2, e', h⟩ := key
  exact ⟨s2, e', by unfold Syntax.Parse; rw [h]; rfl⟩

/-- C41: a parse call of any parser of the syntax, in any context, leaves the pending marks as they
were: the number of marks is the same for every position and every definition.  `Inv` describes the contexts that
occur while parsing `input`; it says nothing about the pending marks. -/
theorem C41_pending {root p : Ptr} {n : Nat} {c c' : Ctx} (h : History s) (hi : s.Init = .ok (s', none))
    (hr : s'.root = some root) (hp : Reach s'.env root p)
    (hc : Inv s'.env input rend (fun _ _ _ => True) c) (hparse : parse s'.env n p c = .ok c') (offset id : Nat) :
    (c'.res.isPending.getD id []).count (offset : Int) = (c.res.isPending.getD id []).count (offset : Int) ∧
    c'.res.pending offset id = c.res.pending offset id := by
  obtain ⟨-, -, hl, -⟩ := h.initialized hi
  obtain ⟨root', hr', hcl⟩ := hl.closed
  rw [hr] at hr'
  obtain rfl := Option.some.inj hr'
  have hP := (parse_spec hcl (Interp.trivial s'.env (Reach s'.env root) input) (s'.env.bounds _) n p c hp hc).of_eq hparse
  have := hP.frame.pc offset id
  refine ⟨this, ?_⟩
  cases hb : c.res.pending offset id with
  | true => rw [Results.pending_iff] at hb ⊢; rw [this]; exact hb
  | false => rw [Results.pending_false_iff] at hb ⊢; rw [this]; exact hb

/-- C13: on valid unicode, the parsing phase does not panic: a panic can only come from building the tree, or from reporting an
error with the position -1, and this only when the root does not even match an empty beginning of the input.  (Partial, see
the counterexamples.) -/
theorem C13_panic_partial {root : Ptr} (h : History s) (hi : s.Init = .ok (s', none)) (hr : s'.root = some root)
    (hval : replacementChar ∉ input) (hp : s.Parse fuel input rend = .panic) :
    ∃ c, parse s'.env fuel root (newContext input rend) = .ok c ∧ c.readErr = none ∧
      ((c.matchLast = false ∧ c.failing ≠ none ∧ c.failOffset = -1 ∧ finalizeParse s'.env c root = .panic) ∨
       ∃ c1, finalizeParse s'.env c root = .ok (none, c1)) := by
  obtain ⟨-, -, hl, -⟩ := h.initialized hi
  obtain ⟨root', hr', hcl⟩ := hl.closed
  rw [hr] at hr'
  obtain rfl := Option.some.inj hr'
  unfold Syntax.Parse at hp
  rw [hi] at hp
  simp only [Res.bind_ok, hr] at hp
  have hp : parseInput s'.env fuel root input rend = .panic := by
    cases hx : parseInput s'.env fuel root input rend with
    | panic => rfl
    | oof => rw [hx] at hp; cases hp
    | ok x => rw [hx] at hp; cases x <;> cases hp
  obtain ⟨c, h1, h2, ⟨h3, h4, h5⟩ | h3⟩ := parseInput_panic hcl hval hp
  · refine ⟨c, h1, h2, Or.inl ⟨?_, h3, h4, h5⟩⟩
    cases hm : c.matchLast with
    | false => rfl
    | true => exact absurd (root_placed h1 hm h4) h3
  · exact ⟨c, h1, h2, Or.inr h3⟩

/-! ### Examples and counterexamples -/

/-- A left recursive, cyclic syntax: C01 and C62 apply. -/
example : ∃ s', History (after cyclicCalls) ∧ (after cyclicCalls).Init = .ok (s', none) :=
  let ⟨s', h⟩ := init_ok (s := after cyclicCalls) (by decide +kernel)
  ⟨s', after_history (by decide +kernel), h⟩

theorem Parse_le (s : Syntax) {n m : Nat} (h : n ≤ m) (input : List Rune) (rend : Option Nat) :
    (s.Parse n input rend).Le (s.Parse m input rend) := by
  unfold Syntax.Parse
  refine (Res.Le.refl _).bind fun x => ?_
  obtain ⟨s1, e⟩ := x
  cases e with
  | some e => exact .refl _
  | none =>
    simp only
    cases s1.root with
    | none => exact .refl _
    | some root => exact (parseInput_le _ h root input rend).bind fun _ => .refl _

theorem panics_le {n m : Nat} (h : s.Parse n input rend = .panic) (hnm : n ≤ m) : s.Parse m input rend = .panic := by
  rw [(Parse_le s hnm input rend).eq (by rw [h]; simp), h]

/-- An accepted text, an error in the second line, a reader error that is reached, and one that is not. -/
example : History (after sumCalls) ∧
    (nodes (run sumCalls 30 (runes "1+2"))).isSome = true ∧
    error (run sumCalls 30 (runes "1+\n2")) = some (.parseError 2 0 2 (runes "digit")) ∧
    error (run linesCalls 30 (runes "a\nab")) = some (.parseError 3 1 1 (runes "a")) ∧
    error (run sumCalls 30 (runes "1+2") (some 7)) = some (.readErr 7) ∧
    error (run sumCalls 30 (runes "1+x") (some 7)) = some (.parseError 2 0 2 (runes "digit")) ∧
    error (run sumCalls 30 [49, 43, replacementChar]) = some .invalidUnicode ∧
    error (run sumCalls 30 [120, replacementChar]) = some (.parseError 0 0 0 (runes "digit")) :=
  ⟨after_history (by decide +kernel), by decide +kernel, by decide +kernel, by decide +kernel, by decide +kernel,
    by decide +kernel, by decide +kernel, by decide +kernel⟩

/-- C12: an invalid character in front of the second option of a choice is a panic (context.go:64-76: after a read error
`readOffset` is beyond the stored tokens). -/
theorem C12_panic_counterexample :
    History (after abCalls) ∧ (∃ s', (after abCalls).Init = .ok (s', none)) ∧
    ∀ n, 30 ≤ n → (after abCalls).Parse n [replacementChar] none = .panic := by
  refine ⟨after_history (by decide +kernel), init_ok (s := after abCalls) (by decide +kernel), fun n hn => ?_⟩
  exact panics_le (s := after abCalls) (panics_ok (x := run abCalls 30 [replacementChar]) (by decide +kernel)) hn

/-- C13: an ordinary syntax and an ordinary invalid text: the error is reported with the position -1, which is a
panic (context.go:121-132: `tokens[:offset]`). -/
theorem C13_error_panic_counterexample :
    History (after optCalls) ∧ (∃ s', (after optCalls).Init = .ok (s', none)) ∧
    ∀ n, 30 ≤ n → (after optCalls).Parse n (runes "xq") none = .panic := by
  refine ⟨after_history (by decide +kernel), init_ok (s := after optCalls) (by decide +kernel), fun n hn => ?_⟩
  exact panics_le (s := after optCalls) (panics_ok (x := run optCalls 30 (runes "xq")) (by decide +kernel)) hn

/-- C13: a valid text of a syntax with cyclic choices: building the tree panics (choice.go:154-163: no
option is left). -/
theorem C13_build_panic_counterexample :
    History (after cyclicCalls) ∧ (∃ s', (after cyclicCalls).Init = .ok (s', none)) ∧
    ∀ n, 30 ≤ n → (after cyclicCalls).Parse n (runes "y") none = .panic := by
  refine ⟨after_history (by decide +kernel), init_ok (s := after cyclicCalls) (by decide +kernel), fun n hn => ?_⟩
  exact panics_le (s := after cyclicCalls) (panics_ok (x := run cyclicCalls 30 (runes "y")) (by decide +kernel)) hn

/-- C41: the context of a new parse call is one of those. -/
example (env : Env) : Inv env input rend (fun _ _ _ => True) (newContext input rend) := .init

end Treerack
