import Verif.Spec.Command
import Verif.Props.Outcome

/-
C34, C35: the command line.
-/

namespace Treerack
open Spec Samples

/-- The option combinations for which the code is wrong: a single positional file together with an inline text
and no file option, or an empty positional argument. -/
def Overlooked (o : FileOptions) : Prop :=
  (o.positional.length = 1 ∧ o.fileName = [] ∧ o.inline ≠ []) ∨ o.positional = [[]]

/-- C34: apart from the overlooked combinations, a command reads its only explicit source, or the standard
input if there is none, and refuses everything else. -/
theorem C34_source_partial (o : FileOptions) (w : World) (h : ¬ Overlooked o) : o.open w = chosen o w := by
  obtain ⟨inl, file, pos⟩ := o
  simp only [Overlooked, not_or, not_and] at h
  obtain ⟨h1, h2⟩ := h
  rcases pos with _ | ⟨p, _ | ⟨q, pos⟩⟩
  · cases file <;> cases inl <;> cases hs : w.stdin <;>
      simp [FileOptions.open, FileOptions.getSource, multipleLoop, chosen, explicit, Origin.read, hs]
  · cases p with
    | nil => simp at h2
    | cons c p =>
      cases file with
      | nil =>
        cases inl with
        | nil => simp [FileOptions.open, FileOptions.getSource, multipleLoop, chosen, explicit, Origin.read]
        | cons => simp at h1
      | cons => cases inl <;> simp [FileOptions.open, FileOptions.getSource, multipleLoop, chosen, explicit]
  · simp [FileOptions.open, FileOptions.getSource, chosen, explicit]

/-- What happens in the overlooked cases: the inline text is ignored when there is a positional file, and an
empty positional argument means the empty text. -/
theorem C34_overlooked (o : FileOptions) (w : World) (h : Overlooked o) :
    o.open w =
      if o.fileName ≠ [] then none
      else if o.positional = [[]] then some ([], none)
      else (o.positional.head?).bind w.files := by
  obtain ⟨inl, file, pos⟩ := o
  simp only [Overlooked] at h
  rcases pos with _ | ⟨p, _ | ⟨q, pos⟩⟩
  · simp at h
  · cases file <;> cases inl <;> cases p <;>
      simp [FileOptions.open, FileOptions.getSource, multipleLoop] at h ⊢
  · simp at h

/-- C34 does not hold: two explicit sources are accepted, and one of them is ignored. -/
theorem C34_multiple_counterexample : ∃ (o : FileOptions) (w : World) (x : Stream),
    2 ≤ (explicit o).length ∧ o.open w = some x :=
  ⟨{ inline := runes "a", positional := [runes "f"] }, ⟨fun _ => some ([], none), none⟩, ([], none), by decide, rfl⟩

/-- C34 does not hold: a file name that cannot be opened is accepted. -/
theorem C34_empty_counterexample : ∃ (o : FileOptions) (w : World) (x : Stream),
    explicit o = [.file []] ∧ w.files [] = none ∧ o.open w = some x :=
  ⟨{ positional := [[]] }, ⟨fun _ => none, none⟩, ([], none), rfl, rfl, rfl⟩

example : ¬ Overlooked { fileName := runes "f" } := by simp [Overlooked]
example : (FileOptions.open { fileName := runes "f" } ⟨fun _ => some (runes "x", none), some (runes "y", none)⟩) =
    some (runes "x", none) := rfl
example : (FileOptions.open { fileName := runes "f", positional := [runes "g"] }
    ⟨fun _ => some (runes "x", none), some (runes "y", none)⟩) = none := rfl

variable {w : World} {fuel : Nat} {syn inp : FileOptions}

theorem openSyntax_some {s : Syntax} (h : syn.openSyntax w fuel = .ok (some s)) :
    ∃ r e, syn.open w = some (r, e) ∧ ({} : Syntax).ReadSyntax (selfParse fuel r e) = .ok (s, none) := by
  unfold FileOptions.openSyntax at h
  cases ho : syn.open w with
  | none => rw [ho] at h; cases h
  | some x =>
    obtain ⟨r, e⟩ := x
    rw [ho] at h
    simp only at h
    obtain ⟨⟨s1, e1⟩, h1, h⟩ := Res.bind_eq_ok h
    cases e1 with
    | some e1 => cases h
    | none => simp only [Res.ok.injEq, Option.some.injEq] at h; subst h; exact ⟨r, e, rfl, h1⟩

/-- C34: the commands that read a syntax and an input find a tree exactly when the syntax can be read from its
source, and parsing what the source of the input delivers returns that tree. -/
theorem C34_parse (n : Node) : parseCmd w fuel syn inp = .ok (some n) ↔
    ∃ r e s r' e' s', syn.open w = some (r, e) ∧ ({} : Syntax).ReadSyntax (selfParse fuel r e) = .ok (s, none) ∧
      inp.open (syn.after w) = some (r', e') ∧ s.Parse fuel r' e' = .ok (s', .node n) := by
  constructor
  · intro h
    unfold parseCmd at h
    obtain ⟨s, h1, h⟩ := Res.bind_eq_ok h
    cases s with
    | none => cases h
    | some s =>
      obtain ⟨r, e, h2, h3⟩ := openSyntax_some h1
      simp only at h
      cases ho : inp.open (syn.after w) with
      | none => rw [ho] at h; cases h
      | some x =>
        obtain ⟨r', e'⟩ := x
        rw [ho] at h
        simp only at h
        obtain ⟨⟨s', y⟩, h4, h⟩ := Res.bind_eq_ok h
        cases y with
        | node m => cases h; exact ⟨r, e, s, r', e', s', h2, h3, rfl, h4⟩
        | error => cases h
        | syntaxError => cases h
  · rintro ⟨r, e, s, r', e', s', h1, h2, h3, h4⟩
    simp [parseCmd, FileOptions.openSyntax, h1, h2, h3, h4]

/-- C34: the standard input is read once.  When neither the syntax nor the input has an explicit source, then the syntax is read from
the standard input, and the input is empty. -/
theorem C34_stdin_once (hs : explicit syn = []) (hi : explicit inp = []) (n : Node) : parseCmd w fuel syn inp = .ok (some n) ↔
    ∃ r e s s', w.stdin = some (r, e) ∧ ({} : Syntax).ReadSyntax (selfParse fuel r e) = .ok (s, none) ∧
      s.Parse fuel [] none = .ok (s', .node n) := by
  have none_ : ∀ {o : FileOptions}, explicit o = [] → o = {} := by
    rintro ⟨inl, file, pos⟩ h
    simp only [explicit, List.append_eq_nil_iff] at h
    obtain ⟨⟨h1, h2⟩, h3⟩ := h
    cases inl <;> cases file <;> cases pos <;> simp at h1 h2 h3 ⊢
  rw [none_ hs, none_ hi, C34_parse]
  obtain ⟨files, stdin⟩ := w
  cases stdin with
  | none => simp [FileOptions.open, FileOptions.getSource, multipleLoop]
  | some x =>
    obtain ⟨r, e⟩ := x
    simp only [FileOptions.open, FileOptions.getSource, FileOptions.after, multipleLoop]
    constructor
    · rintro ⟨r, e, s, r', e', s', h1, h2, h3, h4⟩
      simp at h1 h3
      obtain ⟨rfl, rfl⟩ := h1
      obtain ⟨rfl, rfl⟩ := h3
      exact ⟨_, _, s, s', rfl, h2, h4⟩
    · rintro ⟨r', e', s, s', h1, h2, h3⟩
      cases h1
      exact ⟨r, e, s, [], none, s', by simp, h2, by simp, h3⟩

/-- C34: when the syntax has an explicit source, then the standard input is left for the input. -/
theorem C34_stdin_kept (hs : explicit syn ≠ []) : inp.open (syn.after w) = inp.open w := by
  have : syn.after w = w := by
    obtain ⟨inl, file, pos⟩ := syn
    unfold FileOptions.after
    rcases pos with _ | ⟨p, _ | ⟨q, pos⟩⟩
    · cases file <;> cases inl <;> simp [FileOptions.getSource, multipleLoop, explicit] at hs ⊢
    · cases file <;> cases inl <;> cases p <;> simp [FileOptions.getSource, multipleLoop]
    · simp [FileOptions.getSource]
  rw [this]

/-- C34: the exit code of check tells whether there is a tree; show prints it. -/
theorem C34_check : checkCmd w fuel syn inp = .ok 0 ↔ ∃ n, parseCmd w fuel syn inp = .ok (some n) := by
  unfold checkCmd
  constructor
  · intro h
    obtain ⟨n, h1, h⟩ := Res.bind_eq_ok h
    cases n with
    | none => simp at h
    | some n => exact ⟨n, h1⟩
  · rintro ⟨n, h⟩
    simp [h]

/-- C34: with more than one explicit source for the syntax or for the input the commands fail, and show does not
print anything. -/
theorem C34_refused_partial (h : (2 ≤ (explicit syn).length ∧ ¬ Overlooked syn) ∨
      (2 ≤ (explicit inp).length ∧ ¬ Overlooked inp)) (n : Node) (o : OutNode) :
    parseCmd w fuel syn inp ≠ .ok (some n) ∧ checkCmd w fuel syn inp ≠ .ok 0 ∧
      showCmd w fuel syn inp ≠ .ok (0, some o) := by
  have many : ∀ (x : FileOptions) (v : World), 2 ≤ (explicit x).length → chosen x v = none := by
    intro x v hx
    unfold chosen
    match h : explicit x with
    | [] => rw [h] at hx; simp at hx
    | [_] => rw [h] at hx; simp at hx
    | _ :: _ :: _ => rfl
  have key : ∀ n, parseCmd w fuel syn inp ≠ .ok (some n) := by
    intro n hn
    obtain ⟨r, e, s, r', e', s', h1, -, h3, -⟩ := (C34_parse n).1 hn
    rcases h with ⟨ha, hb⟩ | ⟨ha, hb⟩
    · rw [C34_source_partial _ _ hb, many _ _ ha] at h1; cases h1
    · rw [C34_source_partial _ _ hb, many _ _ ha] at h3; cases h3
  refine ⟨key n, ?_, ?_⟩
  · intro hc
    obtain ⟨n, hn⟩ := C34_check.1 hc
    exact key n hn
  · intro hc
    unfold showCmd at hc
    obtain ⟨n, h1, hc⟩ := Res.bind_eq_ok hc
    cases n with
    | none => simp at hc
    | some n => exact key n h1

/-- C34: check-syntax succeeds exactly when the syntax can be read and initialized. -/
theorem C34_checkSyntax : checkSyntaxCmd w fuel syn = .ok 0 ↔
    ∃ r e s s', syn.open w = some (r, e) ∧ ({} : Syntax).ReadSyntax (selfParse fuel r e) = .ok (s, none) ∧
      s.Init = .ok (s', none) := by
  unfold checkSyntaxCmd
  constructor
  · intro h
    obtain ⟨s, h1, h⟩ := Res.bind_eq_ok h
    cases s with
    | none => cases h
    | some s =>
      obtain ⟨r, e, h2, h3⟩ := openSyntax_some h1
      simp only at h
      obtain ⟨⟨s', e'⟩, h4, h⟩ := Res.bind_eq_ok h
      cases e' with
      | some e' => simp at h
      | none => exact ⟨r, e, s, s', h2, h3, h4⟩
  · rintro ⟨r, e, s, s', h1, h2, h3⟩
    simp [FileOptions.openSyntax, h1, h2, h3]

/-! ### The printed tree -/

mutual
theorem mapNode_ok (input : List Rune) : ∀ (t : Node),
    (∀ m, Sub m t → m.text = .ok ((input.drop m.from_).take (m.to - m.from_))) →
    ∃ o, mapNode t = .ok o ∧ Printed input t o
  | .mk name f t ts [], h => by
    have h0 := h _ .refl
    refine ⟨.mk name f t ((input.drop f).take (t - f)) [], by rw [mapNode, h0]; rfl, ?_⟩
    intro path
    cases path with
    | nil => exact ⟨rfl, rfl, rfl, rfl, fun _ => rfl, fun h => absurd rfl h⟩
    | cons i is => simp [nodeAt, outAt, Node.nodes, OutNode.nodes, ShowsOpt]
  | .mk name f t ts (n :: ns), h => by
    obtain ⟨os, h1, h2, h3⟩ := mapNode_go input (n :: ns) (fun m hm k hk => h k (.child (n := .mk name f t ts (n :: ns)) hm hk))
    refine ⟨.mk name f t [] os, by rw [mapNode, h1]; rfl, ?_⟩
    intro path
    cases path with
    | nil => exact ⟨rfl, rfl, rfl, h2, fun h => by simp [Node.nodes] at h, fun _ => rfl⟩
    | cons i is =>
      have := h3 i is
      simp only [nodeAt, outAt, Node.nodes, OutNode.nodes]
      exact this
theorem mapNode_go (input : List Rune) : ∀ (ns : List Node),
    (∀ n ∈ ns, ∀ m, Sub m n → m.text = .ok ((input.drop m.from_).take (m.to - m.from_))) →
    ∃ os, mapNode.go ns = .ok os ∧ os.length = ns.length ∧
      ∀ (i : Nat) path, ShowsOpt input ((ns[i]?).bind (nodeAt path)) ((os[i]?).bind (outAt path))
  | [], _ => ⟨[], rfl, rfl, fun i path => by simp [ShowsOpt]⟩
  | n :: ns, h => by
    obtain ⟨o, h1, h2⟩ := mapNode_ok input n (h n (by simp))
    obtain ⟨os, h3, h4, h5⟩ := mapNode_go input ns (fun m hm => h m (by simp [hm]))
    refine ⟨o :: os, by rw [mapNode.go, h1]; simp [h3], by simp [h4], ?_⟩
    intro i path
    cases i with
    | zero => simpa using h2 path
    | succ i => simpa using h5 i path
end

/-- C35: the tree printed for a parse tree has a node for each node of it, at the same place, with the same name
and range, and the text of the leaves. -/
theorem C35_show {s s' : Syntax} {input : List Rune} {rend : Option Nat} {t : Node} (h : History s)
    (hp : s.Parse fuel input rend = .ok (s', .node t)) :
    ∃ o, mapNode t = .ok o ∧ Printed input t o :=
  mapNode_ok input t fun m hm => (C40_text h hp m hm).2.2.2

/-- C35: when the syntax and the input are in order, the show command prints the tree found by the parser. -/
theorem C35_command {t : Node} (h : parseCmd w fuel syn inp = .ok (some t)) :
    ∃ input rend o, inp.open (syn.after w) = some (input, rend) ∧ showCmd w fuel syn inp = .ok (0, some o) ∧
      Printed input t o := by
  obtain ⟨r, e, s, r', e', s', h1, h2, h3, h4⟩ := (C34_parse t).1 h
  obtain ⟨o, h5, h6⟩ := C35_show (.read .empty h2) h4
  exact ⟨r', e', o, h3, by simp [showCmd, h, h5], h6⟩

/-- C35: otherwise it does not print anything, and its exit code is not zero. -/
theorem C35_nothing (h : parseCmd w fuel syn inp = .ok none) : showCmd w fuel syn inp = .ok (-1, none) := by
  simp [showCmd, h]

theorem nodeAt_sub : ∀ (path : List Nat) {m t : Node}, nodeAt path t = some m → Sub m t
  | [], m, t, h => by cases h; exact .refl
  | i :: is, m, t, h => by
    obtain ⟨k, h1, h2⟩ := Option.bind_eq_some_iff.1 h
    exact .child (List.mem_of_getElem? h1) (nodeAt_sub is h2)

/-- Every node is found by a path, so `C35_show` is about all of them. -/
theorem sub_nodeAt {m t : Node} (h : Sub m t) : ∃ path, nodeAt path t = some m := by
  induction h with
  | refl => exact ⟨[], rfl⟩
  | child hk _ ih =>
    obtain ⟨path, hp⟩ := ih
    obtain ⟨i, hi⟩ := List.mem_iff_getElem?.1 hk
    exact ⟨i :: path, by simp [nodeAt, hi, hp]⟩

/-- A world with a syntax on the command line: reading it from the option and printing a tree. -/
def inlineOptions : FileOptions := { inline := runes "n=[0-9];s:root=n n" }

/-- The printed nodes in preorder, with their texts. -/
def printed : OutNode → List (Name × Nat × Nat × List Rune)
  | .mk n f t s ns => (n, f, t, s) :: go ns
where
  go : List OutNode → List (Name × Nat × Nat × List Rune)
  | [] => []
  | n :: ns => printed n ++ go ns

/-- The nodes printed by a successful command. -/
def shown (x : Res (Int × Option OutNode)) : List (Name × Nat × Nat × List Rune) :=
  match x with
  | .ok (0, some o) => printed o
  | _ => []

example : shown (showCmd ⟨fun _ => none, some (runes "12", none)⟩ 100000 inlineOptions {}) =
    [(runes "s", 0, 2, []), (runes "n", 0, 1, runes "1"), (runes "n", 1, 2, runes "2")] := by
  decide +kernel

end Treerack
