import Verif.Model.Builder

/-
A larger recursion budget does not change a result.
-/

namespace Treerack

/-- `y` is `x`, or `x` has run out of budget. -/
def Res.Le {α : Type} (x y : Res α) : Prop := x = .oof ∨ x = y

namespace Res.Le
variable {α β : Type}

theorem refl (x : Res α) : x.Le x := Or.inr rfl

theorem oof (x : Res α) : (Res.oof : Res α).Le x := Or.inl rfl

theorem trans {x y z : Res α} (h : x.Le y) (h' : y.Le z) : x.Le z := by
  rcases h with h | h
  · exact Or.inl h
  · subst h; exact h'

theorem bind {x y : Res α} {f g : α → Res β} (h : x.Le y) (h' : ∀ a, (f a).Le (g a)) :
    (x.bind f).Le (y.bind g) := by
  rcases h with h | h
  · subst h; exact Or.inl rfl
  · subst h
    cases x with
    | ok a => exact h' a
    | panic => exact Or.inr rfl
    | oof => exact Or.inr rfl

theorem eq {x y : Res α} (h : x.Le y) (hx : x ≠ .oof) : y = x := by
  rcases h with h | h
  · exact absurd h hx
  · exact h.symm

end Res.Le

theorem isKeywordLoop_le {rec rec' : Ptr → Ctx → Res Ctx} (h : ∀ p c, (rec p c).Le (rec' p c))
    (from_ to : Nat) (kws : List Ptr) (c : Ctx) :
    (isKeywordLoop rec from_ to kws c).Le (isKeywordLoop rec' from_ to kws c) := by
  induction kws generalizing c with
  | nil => exact .refl _
  | cons k kws ih =>
    unfold isKeywordLoop
    refine (h _ _).bind fun c => ?_
    split
    · exact .refl _
    · exact ih _

theorem isKeyword_le {rec rec' : Ptr → Ctx → Res Ctx} (h : ∀ p c, (rec p c).Le (rec' p c))
    (kws : List Ptr) (c : Ctx) (from_ to : Nat) :
    (isKeyword rec kws c from_ to).Le (isKeyword rec' kws c from_ to) := by
  unfold isKeyword
  exact (isKeywordLoop_le h _ _ _ _).bind fun _ => .refl _

theorem choicePass_le {rec rec' : Ptr → Ctx → Res Ctx} (h : ∀ p c, (rec p c).Le (rec' p c))
    (id from_ : Nat) (os : List Ptr) (st : ChoiceSt) :
    (choicePass rec id from_ os st).Le (choicePass rec' id from_ os st) := by
  induction os generalizing st with
  | nil => exact .refl _
  | cons o os ih =>
    unfold choicePass
    refine (h _ _).bind fun c => ?_
    simp only
    split <;> split <;> exact ih _

theorem choiceLoop_le {rec rec' : Ptr → Ctx → Res Ctx} (h : ∀ p c, (rec p c).Le (rec' p c))
    (id from_ : Nat) (os : List Ptr) {n m : Nat} (hn : n ≤ m) (st : ChoiceSt) :
    (choiceLoop rec id from_ os n st).Le (choiceLoop rec' id from_ os m st) := by
  induction n generalizing st m with
  | zero => exact .oof _
  | succ n ih =>
    obtain ⟨m, rfl⟩ : ∃ k, m = k + 1 := ⟨m - 1, by omega⟩
    unfold choiceLoop
    refine (choicePass_le h _ _ _ _).bind fun st => ?_
    split
    · exact ih (by omega) _
    · exact .refl _

theorem choiceParse_le {rec rec' : Ptr → Ctx → Res Ctx} (h : ∀ p c, (rec p c).Le (rec' p c))
    (kws : List Ptr) {n m : Nat} (hn : n ≤ m) (p : Ptr) (d : PDef) (os : List Ptr) (c : Ctx) :
    (choiceParse rec kws n p d os c).Le (choiceParse rec' kws m p d os c) := by
  unfold choiceParse
  split
  · exact .refl _
  · split
    · exact .refl _
    · refine (choiceLoop_le h _ _ _ hn _).bind fun st => ?_
      split
      · refine Res.Le.bind ?_ fun _ => .refl _
        split
        · exact isKeyword_le h _ _ _ _
        · exact .refl _
      · exact .refl _

theorem seqLoop_le {rec rec' : Ptr → Ctx → Res Ctx} (h : ∀ p c, (rec p c).Le (rec' p c))
    (p : Ptr) (d : PDef) (ac : Bool) (from_ : Nat) {n m : Nat} (hn : n ≤ m)
    (its : List (Ptr × (Int × Int))) (k to : Nat) (c : Ctx) :
    (seqLoop rec p d ac from_ n its k to c).Le (seqLoop rec' p d ac from_ m its k to c) := by
  induction n generalizing its k to c m with
  | zero => exact .oof _
  | succ n ih =>
    obtain ⟨m, rfl⟩ : ∃ k, m = k + 1 := ⟨m - 1, by omega⟩
    cases its with
    | nil => exact .refl _
    | cons x rest =>
      obtain ⟨item, mn, mx⟩ := x
      unfold seqLoop
      refine (h _ _).bind fun c => ?_
      split
      · split
        · exact ih (m := m) (by omega) _ _ _ _
        · exact .refl _
      · simp only
        split <;> split <;> exact ih (m := m) (by omega) _ _ _ _

theorem seqParse_le {rec rec' : Ptr → Ctx → Res Ctx} (h : ∀ p c, (rec p c).Le (rec' p c))
    (kws : List Ptr) {n m : Nat} (hn : n ≤ m) (p : Ptr) (d : PDef) (is : List Ptr)
    (rs : List (Int × Int)) (ac : Bool) (c : Ctx) :
    (seqParse rec kws n p d is rs ac c).Le (seqParse rec' kws m p d is rs ac c) := by
  unfold seqParse
  split
  · exact .refl _
  · refine (seqLoop_le h _ _ _ _ hn _ _ _ _).bind fun out => ?_
    cases out with
    | returned c => exact .refl _
    | complete to c =>
      refine Res.Le.bind ?_ fun _ => .refl _
      split
      · exact isKeyword_le h _ _ _ _
      · exact .refl _

theorem parse_le (env : Env) {n m : Nat} (hn : n ≤ m) (p : Ptr) (c : Ctx) :
    (parse env n p c).Le (parse env m p c) := by
  induction n generalizing p c m with
  | zero => exact .oof _
  | succ n ih =>
    obtain ⟨m, rfl⟩ : ∃ k, m = k + 1 := ⟨m - 1, by omega⟩
    have ih := fun p c => ih (m := m) (by omega) p c
    unfold parse
    cases env.defs[p]? with
    | none => exact .refl _
    | some d =>
      simp only
      cases d.kind with
      | char => exact .refl _
      | choice os => exact choiceParse_le ih _ (by omega) _ _ _ _
      | seq is rs ac => exact seqParse_le ih _ (by omega) _ _ _ _ _ _

/-! Building. -/

abbrev BuildRec := Ptr → Ctx → Res (Option (List Node) × Ctx)

theorem choiceBuild_le {rec rec' : BuildRec} (h : ∀ p c, (rec p c).Le (rec' p c)) (env : Env) (d : PDef)
    (os : List Ptr) (c : Ctx) : (choiceBuild rec env d os c).Le (choiceBuild rec' env d os c) := by
  unfold choiceBuild
  split
  · exact .refl _
  · simp only
    split
    · exact .refl _
    · refine (Res.Le.refl _).bind fun r => (Res.Le.refl _).bind fun o => ?_
      cases o with
      | none => exact .refl _
      | some o => exact (h _ _).bind fun _ => .refl _

theorem seqBuildLoop_le {rec rec' : BuildRec} (h : ∀ p c, (rec p c).Le (rec' p c)) {n m : Nat}
    (hn : n ≤ m) (its : List (Ptr × (Int × Int))) (k : Nat) (nodes : List Node) (c : Ctx) :
    (seqBuildLoop rec n its k nodes c).Le (seqBuildLoop rec' m its k nodes c) := by
  induction n generalizing its k nodes c m with
  | zero => exact .oof _
  | succ n ih =>
    obtain ⟨m, rfl⟩ : ∃ k, m = k + 1 := ⟨m - 1, by omega⟩
    cases its with
    | nil => exact .refl _
    | cons x rest =>
      obtain ⟨item, mn, mx⟩ := x
      unfold seqBuildLoop
      refine (h _ _).bind fun x => ?_
      obtain ⟨ns, c⟩ := x
      cases ns with
      | none => exact ih (m := m) (by omega) _ _ _ _
      | some ns =>
        simp only
        split
        · split
          · exact ih (m := m) (by omega) _ _ _ _
          · exact ih (m := m) (by omega) _ _ _ _
        · exact ih (m := m) (by omega) _ _ _ _

theorem seqBuild_le {rec rec' : BuildRec} (h : ∀ p c, (rec p c).Le (rec' p c)) {n m : Nat}
    (hn : n ≤ m) (d : PDef) (is : List Ptr) (rs : List (Int × Int)) (ac : Bool) (c : Ctx) :
    (seqBuild rec n d is rs ac c).Le (seqBuild rec' m d is rs ac c) := by
  unfold seqBuild
  split
  · exact .refl _
  · simp only
    split
    · exact .refl _
    · split
      · exact .refl _
      · exact (Res.Le.refl _).bind fun r => (seqBuildLoop_le h hn _ _ _ _).bind fun _ => .refl _

theorem build_le (env : Env) {n m : Nat} (hn : n ≤ m) (p : Ptr) (c : Ctx) :
    (build env n p c).Le (build env m p c) := by
  induction n generalizing p c m with
  | zero => exact .oof _
  | succ n ih =>
    obtain ⟨m, rfl⟩ : ∃ k, m = k + 1 := ⟨m - 1, by omega⟩
    have ih := fun p c => ih (m := m) (by omega) p c
    unfold build
    cases env.defs[p]? with
    | none => exact .refl _
    | some d =>
      simp only
      cases d.kind with
      | char => exact .refl _
      | choice os => exact choiceBuild_le ih _ _ _ _
      | seq is rs ac => exact seqBuild_le ih (by omega) _ _ _ _ _

theorem parseInput_le (env : Env) {n m : Nat} (hn : n ≤ m) (root : Ptr) (reader : List Rune)
    (rend : Option Nat) :
    (parseInput env n root reader rend).Le (parseInput env m root reader rend) := by
  unfold parseInput
  refine (parse_le env hn _ _).bind fun c => ?_
  split
  · exact .refl _
  · refine (Res.Le.refl _).bind fun x => ?_
    obtain ⟨e, c⟩ := x
    cases e with
    | some e => exact .refl _
    | none => exact (build_le env hn _ _).bind fun _ => .refl _

end Treerack
