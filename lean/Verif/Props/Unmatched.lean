import Verif.Props.Spaced
import Verif.Props.Written

/-
C13: when Parse panics on valid unicode, then the root does not match any beginning of the input, not even the empty one.
C54: reading syntax documents does not panic, as long as the documents are valid unicode.

`Straightforward cs`, `StraightforwardWs cs`: Spec/Conditions.lean.  `Nullable G n`: Spec/Reference.lean.
-/

namespace Treerack
open Spec Samples

variable {cs : List Call} {s s' : Syntax} {input : List Rune} {rend : Option Nat} {root : Name} {n : Nat}

theorem Parse_panic {rp : Ptr} (hi : s.Init = .ok (s', none)) (hr : s'.root = some rp) (hp : s.Parse n input rend = .panic) :
    parseInput s'.env n rp input rend = .panic := by
  unfold Syntax.Parse at hp
  rw [hi] at hp
  simp only [Res.bind_ok, hr] at hp
  cases hx : parseInput s'.env n rp input rend with
  | panic => rfl
  | oof => rw [hx] at hp; cases hp
  | ok x => rw [hx] at hp; cases x <;> cases hp

/-! ### C13 -/

/-- C13: when Parse panics, then the root does not match any beginning of the input.  (Partial: in this case Parse may panic, see
`C13_error_panic_counterexample`; for the conditions see `C13_build_panic_counterexample`.) -/
theorem C13_unmatched_partial (h : Made cs s) (hi : s.Init = .ok (s', none)) (hs : Straightforward cs) (hval : replacementChar ∉ input)
    (hroot : rootOf cs = some root) (hp : s.Parse n input rend = .panic) :
    Ref (grammarOf cs) (blockedOf cs input) input root 0 none := by
  obtain ⟨rp, hr, T, ha, m, hrn, hb⟩ := calls_straight h hi hs
  rw [hroot] at hrn
  obtain rfl := Option.some.inj hrn
  exact (m.ref_iff ha (hb input) T.toParsable .root).2 (parseInput_unmatched T hval (Parse_panic hi hr hp))

/-- C13: the same with whitespace definitions. -/
theorem C13_unmatched_ws_partial (h : Made cs s) (hi : s.Init = .ok (s', none)) (hs : StraightforwardWs cs)
    (hval : replacementChar ∉ input) (hroot : rootOf cs = some root) (hp : s.Parse n input rend = .panic) :
    RefWs cs input (.given root) 0 none := by
  obtain ⟨rp, f, K⟩ := calls_spaced h hi hs.toRegularWs
  have T := K.straight hs.plainRefs
  have hrn := K.rootName
  rw [hroot] at hrn
  have := (K.ref_iff .root).2 (parseInput_unmatched T hval (Parse_panic hi K.rootEq hp))
  rw [K.root_] at this
  rw [Option.some.inj hrn]
  exact this

/-- C13: a syntax whose root may be empty never panics on valid unicode, for any text.  (The definitions that may be empty must not
be checked for keywords.) -/
theorem C13_nullable_partial (h : Made cs s) (hi : s.Init = .ok (s', none)) (hs : Straightforward cs) (hval : replacementChar ∉ input)
    (hroot : rootOf cs = some root) (hn : Nullable (grammarOf cs) root)
    (hk : ∀ m, Nullable (grammarOf cs) m → ¬ RejectsKeywords cs m) : s.Parse n input rend ≠ .panic := fun hp =>
  Treerack.Nullable.matches (fun m _ _ hm hb => hk m hm hb.1) hn 0 (C13_unmatched_partial h hi hs hval hroot hp)

/-- C13: the same with whitespace definitions. -/
theorem C13_nullable_ws_partial (h : Made cs s) (hi : s.Init = .ok (s', none)) (hs : StraightforwardWs cs)
    (hval : replacementChar ∉ input) (hroot : rootOf cs = some root) (hn : Nullable (spaced (wgrammarOf cs)) (.given root))
    (hk : ∀ x, Nullable (spaced (wgrammarOf cs)) x → ¬ Checked cs x) : s.Parse n input rend ≠ .panic := fun hp =>
  Treerack.Nullable.matches (fun x _ _ hm hb => hk x hm hb.1) hn 0 (C13_unmatched_ws_partial h hi hs hval hroot hp)

/-! ### C54 -/

theorem self_root_nullable : Nullable selfEnv.grammar selfRoot := by
  refine .seq (d := ⟨runes "syntax", false, .seq [(194, 0, -1), (195, 1, 1), (194, 0, -1)]⟩) rfl rfl fun x hx h0 => ?_
  simp only [List.mem_cons, List.not_mem_nil, or_false] at hx
  rcases hx with rfl | rfl | rfl
  · cases h0
  · refine .seq (d := ⟨[], true, .seq [(190, 0, 1), (194, 0, -1), (184, 0, 1), (192, 0, 1)]⟩) rfl rfl fun x hx h0 => ?_
    simp only [List.mem_cons, List.not_mem_nil, or_false] at hx
    rcases hx with rfl | rfl | rfl | rfl <;> cases h0
  · cases h0

theorem self_unblocked {text : List Rune} {p : Ptr} {i j : Nat} : ¬ selfEnv.blocked text p i j := by
  rintro ⟨-, k, hk, -⟩
  cases hk

/-- C54: the parser of the documents does not panic on valid unicode. -/
theorem C54_parser_partial {text : List Rune} (hv : replacementChar ∉ text) : selfParse n text rend ≠ .panic := fun hp =>
  Treerack.Nullable.matches (fun _ _ _ _ => self_unblocked) self_root_nullable 0 (parseInput_unmatched self_straight hv hp)

/-- C54: reading a document that is valid unicode does not panic, whatever was defined before. -/
theorem C54_read_partial {text : List Rune} (hv : replacementChar ∉ text) : s.ReadSyntax (selfParse n text rend) ≠ .panic := by
  intro hp
  unfold Syntax.ReadSyntax at hp
  split at hp
  · cases hp
  · rename_i hi
    cases hx : selfParse n text rend with
    | oof => rw [hx] at hp; cases hp
    | panic => exact C54_parser_partial hv hx
    | ok x =>
      rw [hx] at hp
      cases x with
      | error e => cases hp
      | ok tree =>
        obtain ⟨-, -, doc, -, hd⟩ := C30_accepted hx
        have := C30_steps hd s
        unfold Syntax.ReadSyntax at this
        rw [if_neg hi, if_neg hi] at this
        rw [hp] at this
        cases this

/-- C54: reading a document that is valid unicode ends, with the definitions or with an error. -/
theorem C54_outcome_partial {text : List Rune} (hv : replacementChar ∉ text) (rend : Option Nat) :
    ∃ N s' e, ∀ n, N ≤ n → s.ReadSyntax (selfParse n text rend) = .ok (s', e) := by
  obtain ⟨N, x, hx, hN⟩ := parseInput_terminates (input := text) self_straight.linked.closed rend
  have hr : ∀ n, N ≤ n → s.ReadSyntax (selfParse n text rend) = s.ReadSyntax x := fun n hn => by
    unfold selfParse
    rw [hN n hn]
  have h0 := C54_read_partial (s := s) (n := N) (rend := rend) hv
  rw [hr N (Nat.le_refl _)] at h0
  cases hy : s.ReadSyntax x with
  | ok y => exact ⟨N, y.1, y.2, fun n hn => by rw [hr n hn, hy]⟩
  | panic => exact absurd hy h0
  | oof =>
    exfalso
    have hsp : selfParse N text rend = x := by unfold selfParse; exact hN N (Nat.le_refl _)
    unfold Syntax.ReadSyntax at hy
    split at hy
    · cases hy
    · rename_i hi
      cases x with
      | oof => exact hx rfl
      | panic => cases hy
      | ok x =>
        cases x with
        | error e => cases hy
        | ok tree =>
          obtain ⟨-, -, doc, -, hd⟩ := C30_accepted hsp
          have := C30_steps hd s
          unfold Syntax.ReadSyntax at this
          rw [if_neg hi, if_neg hi] at this
          rw [hy] at this
          cases this

/-- C54: a document of one character that is not valid unicode: reading it panics. -/
theorem C54_panic_counterexample : ∀ n, 30 ≤ n → ({} : Syntax).ReadSyntax (selfParse n [replacementChar] none) = .panic := by
  intro n hn
  have h : selfParse 30 [replacementChar] none = .panic := by
    have : (match selfParse 30 [replacementChar] none with | .panic => true | _ => false) = true := by decide +kernel
    cases hx : selfParse 30 [replacementChar] none with
    | panic => rfl
    | oof => rw [hx] at this; cases this
    | ok x => rw [hx] at this; cases this
  have := (parseInput_le selfEnv hn selfRoot [replacementChar] none).eq (by
    change selfParse 30 [replacementChar] none ≠ .oof
    rw [h]; simp)
  unfold selfParse at h ⊢
  rw [this, h]
  rfl

/-! ### Witnesses -/

def optRank (n : Name) : Nat :=
  if n = runes "r" then 5 else if n = runes "c" then 4 else if n = runes "s" then 3 else if n = runes "b" then 2
  else if n = runes "x" ∨ n = runes "y" ∨ n = runes "z" ∨ n = runes "w" then 1 else 0

theorem opt_straight : Straightforward optCalls :=
  straightforward_of (fun _ => false) optRank (by decide +kernel) (by decide +kernel) (by decide +kernel) (by decide +kernel)
    (by decide +kernel)

/-- A panic, and what C13 says about it. -/
example : run optCalls 30 (runes "xq") = .panic ∧
    Ref (grammarOf optCalls) (blockedOf optCalls (runes "xq")) (runes "xq") (runes "r") 0 none := by
  obtain ⟨s', hi⟩ := init_ok (s := after optCalls) (by decide +kernel)
  have hp := panics_ok (x := run optCalls 30 (runes "xq")) (by decide +kernel)
  exact ⟨hp, C13_unmatched_partial (calls_made (calls_ok (by decide +kernel))) hi opt_straight (by decide +kernel) (by decide +kernel) hp⟩

/-- `digit:alias = [0-9]; num = digit+; end:alias = ";"; stat = num end; r:root = stat*` -/
def statCalls : List Call := [
  .class_ (runes "digit") { alias := true } false [] [(48, 57)],
  .sequence (runes "num") {} [{ name := runes "digit", min := 1, max := -1 }],
  .charSequence (runes "end") { alias := true } (runes ";"),
  .sequence (runes "stat") {} [item "num", item "end"],
  .sequence (runes "r") { root := true } [{ name := runes "stat", min := 0, max := -1 }]]

def statRank (n : Name) : Nat :=
  if n = runes "r" then 4 else if n = runes "stat" then 3 else if n = runes "num" ∨ n = runes "end" then 2
  else if n = runes "digit" then 1 else 0

theorem stat_straight : Straightforward statCalls :=
  straightforward_of (fun n => n == runes "r") statRank (by decide +kernel) (by decide +kernel) (by decide +kernel) (by decide +kernel)
    (by decide +kernel)

theorem stat_nullable : Nullable (grammarOf statCalls) (runes "r") := by
  refine .seq (d := ⟨runes "r", false, .seq [(runes "stat", 0, -1)]⟩) (by rfl) rfl fun x hx h0 => ?_
  rw [List.mem_singleton.1 hx] at h0
  cases h0

/-- No text leads to a panic. -/
example {text : List Rune} (hv : replacementChar ∉ text) (n : Nat) (rend : Option Nat) :
    (after statCalls).Parse n text rend ≠ .panic := by
  obtain ⟨s', hi⟩ := init_ok (s := after statCalls) (by decide +kernel)
  refine C13_nullable_partial (calls_made (calls_ok (by decide +kernel))) hi stat_straight hv (by decide +kernel) stat_nullable ?_
  rintro m - ⟨c, hc, -, hk⟩
  have := List.all_eq_true.1 (show (statCalls.all fun c => !c.commit.noKeyword) = true by decide) c hc
  rw [hk] at this
  cases this

def statWsCalls : List Call := statCalls ++ [.charSequence (runes "space") { whitespace := true } (runes " ")]

theorem statWs_straight : StraightforwardWs statWsCalls :=
  straightforwardWs_of (fun x => x == .given (runes "r") || x == .body)
    (partRank (fun n => if n = runes "stat" then 6 else if n = runes "num" ∨ n = runes "end" then 3
      else if n = runes "digit" ∨ n = runes "space" then 1 else 0) (runes "r"))
    (by decide +kernel) (by decide +kernel) (by decide +kernel) (by decide +kernel) (by decide +kernel) (by decide +kernel)

/-- The same with whitespace. -/
example {text : List Rune} (hv : replacementChar ∉ text) (n : Nat) (rend : Option Nat) :
    (after statWsCalls).Parse n text rend ≠ .panic := by
  obtain ⟨s', hi⟩ := init_ok (s := after statWsCalls) (by decide +kernel)
  have hno : ∀ m, ¬ RejectsKeywords statWsCalls m := by
    rintro m ⟨c, hc, -, hk⟩
    have := List.all_eq_true.1 (show (statWsCalls.all fun c => !c.commit.noKeyword) = true by decide) c hc
    rw [hk] at this
    cases this
  refine C13_nullable_ws_partial (root := runes "r") (calls_made (calls_ok (by decide +kernel))) hi statWs_straight hv (by decide +kernel) ?_ ?_
  · refine .seq (d := ⟨runes "r", false, .seq [(.space, 0, -1), (.body, 1, 1), (.space, 0, -1)]⟩) (by rfl) rfl fun x hx h0 => ?_
    simp only [List.mem_cons, List.not_mem_nil, or_false] at hx
    rcases hx with rfl | rfl | rfl
    · cases h0
    · refine .seq (d := ⟨[], true, .seq [(.several (runes "r") 0, 0, 1)]⟩) (by rfl) rfl fun x hx h0 => ?_
      rw [List.mem_singleton.1 hx] at h0
      cases h0
    · cases h0
  · intro x _ hx
    cases x with
    | given n => exact hno _ hx.2
    | body => exact hno _ hx
    | space => exact hx
    | rest => exact hx
    | several => exact hx

/-- Errors of these syntaxes, and a document with an error. -/
example : error (run statCalls 60 (runes "12;3")) = some (.parseError 4 0 4 (runes "digit")) ∧
    error (run statWsCalls 60 (runes " 12 ; 3")) = some (.parseError 7 0 7 (runes "digit")) := by decide +kernel

end Treerack
