import Verif.Proofs.DefErrors
import Verif.Props.Definitions

/-
C53: the texts of the errors of definitions and of the initialization.

`order`: the entries of the Go map of the incompatible commit types, in the order in which `range` happens to visit them.
`Rejected`, `NotInitialized`, `Clash`: Spec/DefErrors.lean.
-/

namespace Treerack
open Spec Samples

variable {s s' : Syntax} {order : List (Nat × List Nat)}

/-! ### C53 -/

/-- C53: incompatible flags are found in whatever order the map is visited, and only those. -/
theorem C53_flags (n : Name) (ct : Commit) (ho : order.Perm incompatibleCommitTypes) :
    (∃ t, checkCommitType n ct.bits order = some t) ↔ ¬ Compatible ct := by
  rw [← compatible_iff, ← checkCommitType_compatible (n := n) ho]
  cases checkCommitType n ct.bits order <;> simp

/-- C53: the message names two flags that the definition has, and that exclude each other. -/
theorem C53_clash {n : Name} {ct : Commit} {t : List Rune} (ho : order.Perm incompatibleCommitTypes)
    (h : checkCommitType n ct.bits order = some t) : ∃ f g, Clash ct f g ∧ t = clashText n f g := checkCommitType_clash ho h

/-- C53: the error of a definition call has a text, and what the text tells is the case. -/
theorem C53_call {c : Call} {e : SynErr} (ho : order.Perm incompatibleCommitTypes) (h : s.call c = (s', some e)) :
    ∃ t, e.text order c.objectCommit = some t ∧ Rejected s c t := by
  have he := call_error h
  clear h
  cases he with
  | initialized h => exact ⟨_, rfl, .initialized h⟩
  | name h => exact ⟨_, rfl, .name h⟩
  | flags h =>
    have hi : c.objectCommit.incompatible = true := by rw [← h]; cases c <;> rfl
    rcases hx : checkCommitType c.name c.objectCommit.bits order with _ | t
    · rw [checkCommitType_compatible ho, hi] at hx
      cases hx
    · obtain ⟨f, g, h1, rfl⟩ := checkCommitType_clash ho hx
      exact ⟨_, hx, .flags (Treerack.Clash.of_eq h1 (by cases c <;> rfl) (by cases c <;> rfl) (by cases c <;> rfl) (by cases c <;> rfl)
        (by cases c <;> rfl) (by cases c <;> rfl))⟩
  | roots h1 h2 => exact ⟨_, rfl, .roots h1 h2⟩
  | duplicate h1 h2 => exact ⟨_, rfl, .duplicate h1 h2⟩

/-- C53: the same for the initialization, after any calls.  The flags are the ones of the root definition at that time. -/
theorem C53_init {e : SynErr} (ho : order.Perm incompatibleCommitTypes) (h : s.Init = .ok (s', some e)) :
    ∃ t, (∀ root d, s.root = some root → s.heap[root]? = some d → e.text order d.commitType = some t) ∧
      (s.root = none → e.text order {} = some t) ∧ NotInitialized s s' t := by
  rw [Syntax.Init_eq] at h
  split at h
  · cases h
    exact ⟨_, fun _ _ _ _ => rfl, fun _ => rfl, .before (by assumption)⟩
  · split at h
    · cases h
    · split at h
      · cases h
        exact ⟨_, fun _ _ _ _ => rfl, fun _ => rfl, .empty (by assumption)⟩
      · rename_i root hr
        split at h
        · cases h
        · rename_i d hd
          split at h
          · rename_i hc
            cases h
            rcases hx : checkCommitType d.name d.commitType.bits order with _ | t
            · rw [checkCommitType_compatible ho, hc] at hx
              cases hx
            · obtain ⟨f, g, h1, rfl⟩ := checkCommitType_clash ho hx
              refine ⟨_, fun root' d' hr' hd' => ?_, fun h => ?_, .flags hr hd h1⟩
              · rw [hr] at hr'
                cases hr'
                rw [hd] at hd'
                cases hd'
                exact hx
              · rw [hr] at h
                cases h
          · obtain ⟨⟨s1, r1⟩, -, h⟩ := Res.bind_eq_ok h
            obtain ⟨n, h1, rfl⟩ := finishInit_notFound h
            exact ⟨_, fun _ _ _ _ => rfl, fun _ => rfl, .missing h1⟩

theorem Clash.noSpace {ct : Commit} {f g : List Rune} (h : Clash ct f g) : (32 : Nat) ∉ f ∧ (32 : Nat) ∉ g := by
  cases h <;> decide

/-- The part before the last separator. -/
theorem append_right_inj' {sep : List Rune} : ∀ {a b f g : List Rune}, (32 : Nat) ∉ f → (32 : Nat) ∉ g → sep.getLast? = some 32 →
    a ++ sep ++ f = b ++ sep ++ g → a = b ∧ f = g := by
  intro a b f g hf hg hs h
  obtain ⟨pre, rfl⟩ : ∃ pre, sep = pre ++ [32] := by
    rcases List.getLast?_eq_some_iff.1 hs with ⟨ys, rfl⟩
    exact ⟨ys, rfl⟩
  have h' : f.reverse ++ (32 :: (a ++ pre).reverse) = g.reverse ++ (32 :: (b ++ pre).reverse) := by
    have := congrArg List.reverse h
    simpa using this
  have key : ∀ {x y u v : List Rune}, (32 : Nat) ∉ x → (32 : Nat) ∉ y → x ++ 32 :: u = y ++ 32 :: v → x = y ∧ u = v := by
    intro x
    induction x with
    | nil =>
      intro y u v _ hy h
      cases y with
      | nil => simpa using h
      | cons c y =>
        simp only [List.nil_append, List.cons_append, List.cons.injEq] at h
        exact absurd (h.1 ▸ List.mem_cons_self ..) hy
    | cons c x ih =>
      intro y u v hx hy h
      cases y with
      | nil =>
        simp only [List.nil_append, List.cons_append, List.cons.injEq] at h
        exact absurd (h.1 ▸ List.mem_cons_self ..) hx
      | cons c' y =>
        simp only [List.cons_append, List.cons.injEq] at h
        obtain ⟨h1, h2⟩ := ih (fun h => hx (List.mem_cons_of_mem _ h)) (fun h => hy (List.mem_cons_of_mem _ h)) h.2
        exact ⟨by rw [h.1, h1], h2⟩
  obtain ⟨h1, h2⟩ := key (by simpa using hf) (by simpa using hg) h'
  refine ⟨?_, by simpa using h1⟩
  have := List.reverse_inj.1 h2
  exact List.append_cancel_right this

/-- C53: the text of an error tells which error it is, including the name of the definition. -/
theorem C53_distinct {e e' : SynErr} {ct ct' : Commit} {order' : List (Nat × List Nat)} {t : List Rune}
    (ho : order.Perm incompatibleCommitTypes) (ho' : order'.Perm incompatibleCommitTypes) (hr : ∀ x, e ≠ .readSyntax x)
    (hr' : ∀ x, e' ≠ .readSyntax x) (h : e.text order ct = some t) (h' : e'.text order' ct' = some t) : e = e' := by
  have clash : ∀ {n : Name} {ct : Commit} {order : List (Nat × List Nat)}, order.Perm incompatibleCommitTypes →
      checkCommitType n ct.bits order = some t → ∃ f g, Clash ct f g ∧ t = clashText n f g := checkCommitType_clash
  have shape : ∀ {e : SynErr} {ct : Commit} {order : List (Nat × List Nat)}, order.Perm incompatibleCommitTypes →
      (∀ x, e ≠ .readSyntax x) → e.text order ct = some t →
      e = .syntaxInitialized ∧ t = runes "syntax initialized" ∨ e = .initFailed ∧ t = runes "init failed" ∨
      e = .noParsersDefined ∧ t = runes "no parsers defined" ∨ e = .multipleRoots ∧ t = runes "multiple roots" ∨
      e = .invalidSymbolName ∧ t = runes "invalid symbol name" ∨
      (∃ n, e = .duplicateDefinition n ∧ t = runes "duplicate definition: " ++ n) ∨
      (∃ n, e = .parserNotFound n ∧ t = runes "parser not found: " ++ n) ∨
      ∃ n f g ct, e = .incompatibleCommit n ∧ Clash ct f g ∧ t = clashText n f g := by
    intro e ct order ho hr h
    cases e with
    | incompatibleCommit n =>
      obtain ⟨f, g, h1, h2⟩ := clash ho h
      simp only [SynErr.incompatibleCommit.injEq, reduceCtorEq, false_and, false_or, exists_false]
      exact ⟨n, f, g, ct, rfl, h1, h2⟩
    | readSyntax x => exact absurd rfl (hr x)
    | _ => simp_all [SynErr.text]
  rcases shape ho hr h with ⟨rfl, rfl⟩ | ⟨rfl, rfl⟩ | ⟨rfl, rfl⟩ | ⟨rfl, rfl⟩ | ⟨rfl, rfl⟩ | ⟨n, rfl, rfl⟩ | ⟨n, rfl, rfl⟩ | ⟨n, f, g, _, rfl, h1, rfl⟩ <;>
  rcases shape ho' hr' h' with ⟨rfl, he⟩ | ⟨rfl, he⟩ | ⟨rfl, he⟩ | ⟨rfl, he⟩ | ⟨rfl, he⟩ | ⟨n', rfl, he⟩ | ⟨n', rfl, he⟩ | ⟨n', f', g', _, rfl, h1', he⟩
  case inr.inr.inr.inr.inr.inr.inr.inr.inr.inr.inr.inr.inr.inr =>
    obtain ⟨h2, -⟩ := append_right_inj' (Treerack.Clash.noSpace h1).2 (Treerack.Clash.noSpace h1').2 (by decide) he
    obtain ⟨h3, -⟩ := append_right_inj' (Treerack.Clash.noSpace h1).1 (Treerack.Clash.noSpace h1').1 (by decide) h2
    rw [List.append_cancel_left h3]
  all_goals first
    | rfl
    | rw [List.append_cancel_left he]
    | simp [runes, clashText] at he

/-- C53: the flags have different texts, none of which is the text of an unknown flag. -/
theorem C53_strings : ([noneBits, aliasBits, whitespaceBits, noWhitespaceBits, keywordBits, noKeywordBits, failPassBits, rootBits].map
    commitTypeString).Nodup ∧
    ∀ b ∈ [noneBits, aliasBits, whitespaceBits, noWhitespaceBits, keywordBits, noKeywordBits, failPassBits, rootBits],
      commitTypeString b ≠ runes "unknown" := by decide

/-! ### Witnesses -/

/-- A second definition with the same name, a second root, and flags that exclude each other, after the calls of the sample. -/
example : ((after sumCalls).call (.choice (runes "num") {} [])).2.bind (SynErr.text incompatibleCommitTypes {}) =
      some (runes "duplicate definition: num") ∧
    ((after sumCalls).call (.choice (runes "x") { root := true } [])).2.bind (SynErr.text incompatibleCommitTypes {}) =
      some (runes "multiple roots") ∧
    ((after sumCalls).call (.choice (runes "x") { alias := true, root := true } [])).2.bind
      (SynErr.text incompatibleCommitTypes { alias := true, root := true }) =
      some (runes "incompatible commit types in x: alias and root") := by decide +kernel

/-- With more than one clash the message depends on the order. -/
example : checkCommitType (runes "x") ({ alias := true, failPass := true, root := true } : Commit).bits incompatibleCommitTypes =
      some (runes "incompatible commit types in x: alias and root") ∧
    checkCommitType (runes "x") ({ alias := true, failPass := true, root := true } : Commit).bits incompatibleCommitTypes.reverse =
      some (runes "incompatible commit types in x: fail-pass and root") ∧
    incompatibleCommitTypes.reverse.Perm incompatibleCommitTypes := ⟨by decide, by decide, List.reverse_perm _⟩

/-- A missing definition, and an alias that became the root. -/
example : ∃ s', (after missingCalls).Init = .ok (s', some (.parserNotFound (runes "x"))) ∧
    (SynErr.parserNotFound (runes "x")).text incompatibleCommitTypes {} = some (runes "parser not found: x") := by
  obtain ⟨s', h⟩ := init_error (s := after missingCalls) (e := some (.parserNotFound (runes "x"))) (by decide +kernel)
  exact ⟨s', h, rfl⟩

example : ∃ s', (after [.class_ (runes "a") { alias := true } false (runes "x") []]).Init = .ok (s', some (.incompatibleCommit (runes "a"))) ∧
    (SynErr.incompatibleCommit (runes "a")).text incompatibleCommitTypes { alias := true, root := true, userDefined := true } =
      some (runes "incompatible commit types in a: alias and root") := by
  obtain ⟨s', h⟩ := init_error (s := after [.class_ (runes "a") { alias := true } false (runes "x") []])
    (e := some (.incompatibleCommit (runes "a"))) (by decide +kernel)
  exact ⟨s', h, by decide⟩

end Treerack
