import Verif.Spec.Whitespace
import Verif.Proofs.Weak
import Verif.Proofs.Linked

/-
Syntaxes used in the examples that accompany the theorems.
-/

namespace Treerack.Samples
open Spec

/-- `digit:alias = [0-9]; num:nows = digit+; plus:alias = "+"; tail:alias = plus num; sum:root = num tail*` -/
def sumCalls : List Call := [
  .class_ (runes "digit") { alias := true } false [] [(48, 57)],
  .sequence (runes "num") { noWhitespace := true } [{ name := runes "digit", min := 1, max := -1 }],
  .charSequence (runes "plus") { alias := true } (runes "+"),
  .sequence (runes "tail") { alias := true } [{ name := runes "plus" }, { name := runes "num" }],
  .sequence (runes "sum") { root := true }
    [{ name := runes "num" }, { name := runes "tail", min := 0, max := -1 }]]

/-- The same with `space:ws = " "`. -/
def sumWsCalls : List Call := sumCalls ++ [.charSequence (runes "space") { whitespace := true } (runes " ")]

/-- A sequence item without a quantifier. -/
def item (n : String) : SeqItem := { name := runes n }

/-- A keyword that is a sequence, in a syntax with whitespace:
`letter:alias = [a-z]; n:nokw:nows = letter+; a:alias = "a"; b:alias = "b"; c:alias = "c"; d:alias = "d";
space:ws = " "; kw:kw = a b; x = c d; r:root = n | x`. -/
def staleCalls : List Call := [
  .class_ (runes "letter") { alias := true } false [] [(97, 122)],
  .sequence (runes "n") { noKeyword := true, noWhitespace := true } [{ name := runes "letter", min := 1, max := -1 }],
  .charSequence (runes "a") { alias := true } (runes "a"),
  .charSequence (runes "b") { alias := true } (runes "b"),
  .charSequence (runes "c") { alias := true } (runes "c"),
  .charSequence (runes "d") { alias := true } (runes "d"),
  .charSequence (runes "space") { whitespace := true } (runes " "),
  .sequence (runes "kw") { keyword := true } [item "a", item "b"],
  .sequence (runes "x") {} [item "c", item "d"],
  .choice (runes "r") { root := true } [runes "n", runes "x"]]

/-- `a:alias = "a"; b:alias = "b"; r:root = a | b` -/
def abCalls : List Call := [
  .charSequence (runes "a") { alias := true } (runes "a"),
  .charSequence (runes "b") { alias := true } (runes "b"),
  .choice (runes "r") { root := true } [runes "a", runes "b"]]

/-- `a:alias = "a"; nl:alias = "\n"; r:root = a nl a a` -/
def linesCalls : List Call := [
  .charSequence (runes "a") { alias := true } (runes "a"),
  .charSequence (runes "nl") { alias := true } (runes "\n"),
  .sequence (runes "r") { root := true } [item "a", item "nl", item "a", item "a"]]

/-- `b = "y" | "z"; c = s | "w"; s = "x" b?; r:root = c b`, each character sequence having its own name. -/
def optCalls : List Call := [
  .charSequence (runes "y") { alias := true } (runes "y"),
  .charSequence (runes "z") { alias := true } (runes "z"),
  .choice (runes "b") {} [runes "y", runes "z"],
  .charSequence (runes "x") { alias := true } (runes "x"),
  .charSequence (runes "w") { alias := true } (runes "w"),
  .sequence (runes "s") {} [item "x", { name := runes "b", min := 0, max := 1 }],
  .choice (runes "c") {} [runes "s", runes "w"],
  .sequence (runes "r") { root := true } [item "c", item "b"]]

/-- `y:alias = "y"; b = y | a; a:root = b` -/
def cyclicCalls : List Call := [
  .charSequence (runes "y") { alias := true } (runes "y"),
  .choice (runes "b") {} [runes "y", runes "a"],
  .choice (runes "a") { root := true } [runes "b"]]

/-- The syntax after the calls. -/
def after (cs : List Call) : Syntax := (Syntax.calls {} cs).getD {}

/-- What parsing a text returns, after the calls. -/
def run (cs : List Call) (fuel : Nat) (text : List Rune) (rend : Option Nat := none) :
    Res (Syntax × Syntax.ParseResult) := (after cs).Parse fuel text rend

/-- The returned tree. -/
def tree (x : Res (Syntax × Syntax.ParseResult)) : Option Node :=
  match x with
  | .ok (_, .node n) => some n
  | _ => none

mutual
/-- The nodes of a tree in preorder: depth, name, from, to. -/
def flat : Nat → Node → List (Nat × Name × Nat × Nat)
  | k, .mk n f t _ ns => (k, n, f, t) :: flats (k + 1) ns
def flats : Nat → List Node → List (Nat × Name × Nat × Nat)
  | _, [] => []
  | k, n :: ns => flat k n ++ flats k ns
end

/-- The nodes of the returned tree. -/
def nodes (x : Res (Syntax × Syntax.ParseResult)) : Option (List (Nat × Name × Nat × Nat)) := (tree x).map (flat 0)

/-- The returned error. -/
def error (x : Res (Syntax × Syntax.ParseResult)) : Option Err :=
  match x with
  | .ok (_, .error e) => some e
  | _ => none

/-- Did it panic? -/
def panics (x : Res (Syntax × Syntax.ParseResult)) : Bool :=
  match x with
  | .panic => true
  | _ => false

theorem calls_history {cs : List Call} {s s' : Syntax} (h : s.calls cs = some s') (hs : History s) : History s' := by
  induction cs generalizing s with
  | nil => cases h; exact hs
  | cons c cs ih =>
    unfold Syntax.calls at h
    have hc := hs.call c
    generalize s.call c = x at h hc
    obtain ⟨s1, e⟩ := x
    cases e with
    | some e => cases h
    | none => exact ih h hc

theorem made_history {cs : List Call} {s : Syntax} (h : Made cs s) : History s := by
  induction h with
  | empty => exact .empty
  | @call cs s s' c _ hc ih => have := ih.call c; rw [hc] at this; exact this
  | @document cs s s' c _ hc ih => have := ih.define c; rw [hc] at this; exact this

theorem tree_ok {x : Res (Syntax × Syntax.ParseResult)} (h : (nodes x).isSome = true) : ∃ s t, x = .ok (s, .node t) := by
  unfold nodes tree at h
  split at h
  · exact ⟨_, _, rfl⟩
  · simp at h

theorem calls_ok {cs : List Call} (h : (Syntax.calls {} cs).isSome = true) : Syntax.calls {} cs = some (after cs) := by
  unfold after
  cases hc : Syntax.calls {} cs with
  | none => rw [hc] at h; simp at h
  | some s => rfl

theorem after_history {cs : List Call} (h : (Syntax.calls {} cs).isSome = true) : History (after cs) :=
  calls_history (calls_ok h) .empty

/-- Did `Init` succeed? -/
def initOk (s : Syntax) : Bool :=
  match s.Init with
  | .ok (_, none) => true
  | _ => false

theorem init_ok {s : Syntax} (h : initOk s = true) : ∃ s', s.Init = .ok (s', none) := by
  unfold initOk at h
  split at h
  · exact ⟨_, by assumption⟩
  · cases h

theorem error_ok {x : Res (Syntax × Syntax.ParseResult)} {e : Err} (h : error x = some e) :
    ∃ s, x = .ok (s, .error e) := by
  unfold error at h
  split at h
  · cases h; exact ⟨_, rfl⟩
  · cases h

theorem panics_ok {x : Res (Syntax × Syntax.ParseResult)} (h : panics x = true) : x = .panic := by
  unfold panics at h
  split at h
  · rfl
  · cases h

/-- The initialized syntax. -/
def initOf (cs : List Call) : Syntax :=
  match (after cs).Init with
  | .ok (s, _) => s
  | _ => {}

theorem init_of {cs : List Call} (h : initOk (after cs) = true) : (after cs).Init = .ok (initOf cs, none) := by
  unfold initOf
  obtain ⟨s', hs⟩ := init_ok h
  rw [hs]

/-- Follow the references from a parser: the first option or item, or the second one, and so on. -/
def follow (env : Env) : List Nat → Ptr → Option Ptr
  | [], p => some p
  | i :: is, p => (env.defs[p]?).bind fun d => (d.kind.children[i]?).bind fun q => follow env is q

theorem follow_reach {env : Env} {root : Ptr} : ∀ {is : List Nat} {p q : Ptr}, Reach env root p → follow env is p = some q →
    Reach env root q
  | [], p, q, hp, h => by cases h; exact hp
  | i :: is, p, q, hp, h => by
    simp only [follow] at h
    obtain ⟨d, h1, h⟩ := Option.bind_eq_some_iff.1 h
    obtain ⟨r, h2, h⟩ := Option.bind_eq_some_iff.1 h
    exact follow_reach (.child hp h1 (List.mem_of_getElem? h2)) h

end Treerack.Samples
