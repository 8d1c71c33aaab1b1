import Verif.Spec.CommandLine

/-
Parsing the arguments.
-/

namespace Treerack
open Spec

/-- The names of the flags can be written. -/
def Writable (formal : Name → Option FlagKind) : Prop :=
  ∀ name k, formal name = some k → name ≠ [] ∧ name.head? ≠ some 45 ∧ 61 ∉ name

theorem formal_mem {c : Command} {name : Name} {k : FlagKind} (h : c.formal name = some k) : (name, k) ∈ c.flags := by
  unfold Command.formal at h
  obtain ⟨x, hx, rfl⟩ := Option.map_eq_some_iff.1 h
  have h1 := List.find?_some hx
  simp only [beq_iff_eq] at h1
  subst h1
  exact List.mem_of_find?_eq_some hx

theorem command_writable (c : Command) : Writable c.formal := by
  intro name k h
  have hm := formal_mem h
  have key : ∀ c : Command, ∀ x ∈ c.flags, x.1 ≠ [] ∧ x.1.head? ≠ some 45 ∧ 61 ∉ x.1 := by
    intro c; cases c <;> decide
  exact key c _ hm

theorem cutEquals_value : ∀ (name text : List Rune), 61 ∉ name → cutEquals (name ++ 61 :: text) = (name, some text)
  | [], text, _ => by simp [cutEquals]
  | c :: name, text, h => by
    have hc : c ≠ 61 := fun e => h (by simp [e])
    have := cutEquals_value name text (fun hm => h (List.mem_cons_of_mem _ hm))
    rw [List.cons_append, cutEquals, if_neg hc, this]

theorem cutEquals_none : ∀ (name : List Rune), 61 ∉ name → cutEquals name = (name, none)
  | [], _ => rfl
  | c :: name, h => by
    have hc : c ≠ 61 := fun e => h (by simp [e])
    have := cutEquals_none name (fun hm => h (List.mem_cons_of_mem _ hm))
    rw [cutEquals, if_neg hc, this]

theorem cutEquals_inv : ∀ (s : List Rune), (61 ∉ s ∧ cutEquals s = (s, none)) ∨
    ∃ name text, 61 ∉ name ∧ s = name ++ 61 :: text ∧ cutEquals s = (name, some text)
  | [] => .inl ⟨by simp, rfl⟩
  | c :: s => by
    by_cases hc : c = 61
    · subst hc
      exact .inr ⟨[], s, by simp, rfl, by simp [cutEquals]⟩
    · rcases cutEquals_inv s with ⟨h1, h2⟩ | ⟨name, text, h1, rfl, h2⟩
      · left
        refine ⟨?_, by rw [cutEquals, if_neg hc, h2]⟩
        intro hm
        rcases List.mem_cons.1 hm with h | h
        · exact hc h.symm
        · exact h1 h
      · right
        refine ⟨c :: name, text, ?_, rfl, by rw [cutEquals, if_neg hc, h2]⟩
        intro hm
        rcases List.mem_cons.1 hm with h | h
        · exact hc h.symm
        · exact h1 h

theorem parseBool_iff (t : List Rune) (b : Bool) : parseBool t = some b ↔ Writes .bool t (.bool b) := by
  unfold parseBool
  constructor
  · intro h
    split at h
    · rename_i h1; cases h; exact .yes (by simpa using h1)
    · split at h
      · rename_i h1; cases h; exact .no (by simpa using h1)
      · cases h
  · intro h
    cases h with
    | yes h => rw [if_pos (by simpa using h)]
    | no h =>
      have h1 : ∀ x ∈ ["0", "f", "F", "false", "FALSE", "False"].map runes,
        (["1", "t", "T", "true", "TRUE", "True"].map runes).contains x = false := by decide
      have h2 := h1 t h
      rw [if_neg (by rw [h2]; decide), if_pos (by simpa using h)]

/-- What the dashes in front of a name are. -/
theorem dashes_name {d rest : List Rune} (hd : Dashes d) (h1 : rest ≠ []) (h2 : rest.head? ≠ some 45) :
    ¬ ((d ++ rest).length < 2 ∨ (d ++ rest).head? ≠ some 45) ∧ d ++ rest ≠ [45, 45] ∧
      (if (d ++ rest)[1]? = some 45 then (d ++ rest).drop 2 else (d ++ rest).drop 1) = rest := by
  cases rest with
  | nil => exact absurd rfl h1
  | cons c t =>
    have hc : c ≠ 45 := fun e => h2 (by simp [e])
    rcases hd with rfl | rfl
    · refine ⟨by simp, by simp [hc], ?_⟩
      simp [hc]
    · refine ⟨by simp, by simp, by simp⟩

theorem parseOne_flag {formal : Name → Option FlagKind} {d rest : List Rune} {args : List Name} (hd : Dashes d)
    (h1 : rest ≠ []) (h2 : rest.head? ≠ some 45) (h3 : rest.head? ≠ some 61) :
    parseOne formal ((d ++ rest) :: args) = setFlag formal (cutEquals rest) args := by
  obtain ⟨ha, hb, hc⟩ := dashes_name hd h1 h2
  rw [parseOne, if_neg ha, if_neg hb]
  simp only
  rw [hc, if_neg (by simp [h1, h2, h3])]

/-- Where a flag is, there are dashes and a name. -/
theorem parseOne_inv {formal : Name → Option FlagKind} {s : Name} {args : List Name} :
    (parseOne formal (s :: args) = .done (s :: args) ∧ (s.head? ≠ some 45 ∨ s = [45])) ∨
    (s = [45, 45] ∧ parseOne formal (s :: args) = .done args) ∨ parseOne formal (s :: args) = .error ∨
    ∃ d rest, Dashes d ∧ rest ≠ [] ∧ rest.head? ≠ some 45 ∧ rest.head? ≠ some 61 ∧ s = d ++ rest := by
  by_cases h1 : s.length < 2 ∨ s.head? ≠ some 45
  · left
    refine ⟨by rw [parseOne, if_pos h1], ?_⟩
    rcases h1 with h1 | h1
    · match s, h1 with
      | [], _ => exact .inl (by simp)
      | [c], _ =>
        by_cases hc : c = 45
        · exact .inr (by rw [hc])
        · exact .inl (by simp [hc])
      | _ :: _ :: _, h1 => exact absurd h1 (by simp)
    · exact .inl h1
  · right
    by_cases h2 : s = [45, 45]
    · exact .inl ⟨h2, by rw [parseOne, if_neg h1, if_pos h2]⟩
    · right
      by_cases h3 : (if s[1]? = some 45 then s.drop 2 else s.drop 1) = [] ∨
          (if s[1]? = some 45 then s.drop 2 else s.drop 1).head? = some 45 ∨
          (if s[1]? = some 45 then s.drop 2 else s.drop 1).head? = some 61
      · left
        rw [parseOne, if_neg h1, if_neg h2]
        simp only
        rw [if_pos h3]
      · right
        simp only [not_or] at h3
        match s, h1, h3 with
        | [], h1, _ => simp at h1
        | [c], h1, _ => simp at h1
        | a :: b :: t, h1, h3 =>
          have ha : a = 45 := by
            apply Classical.byContradiction
            intro hn
            exact h1 (.inr (by simp [hn]))
          subst ha
          by_cases hb : b = 45
          · subst hb
            simp only [List.getElem?_cons_succ, List.getElem?_cons_zero, if_true, List.drop_succ_cons, List.drop_zero] at h3
            exact ⟨[45, 45], t, .inr rfl, h3.1, h3.2.1, h3.2.2, rfl⟩
          · simp only [List.getElem?_cons_succ, List.getElem?_cons_zero, Option.some.injEq, hb, if_false,
              List.drop_succ_cons, List.drop_zero] at h3
            exact ⟨[45], b :: t, .inl rfl, h3.1, h3.2.1, h3.2.2, rfl⟩

theorem parseOne_sound {formal : Name → Option FlagKind} (args : List Name) :
    match parseOne formal args with
    | .done rest => Flags formal args [] rest
    | .error => True
    | .set name v args' => ∀ fs rest, Flags formal args' fs rest → Flags formal args ((name, v) :: fs) rest := by
  cases args with
  | nil => exact .nil
  | cons s args =>
    rcases parseOne_inv (formal := formal) (s := s) (args := args) with ⟨h, hp⟩ | ⟨rfl, h⟩ | h | ⟨d, rest, hd, h1, h2, h3, rfl⟩
    · rw [h]; exact .positional hp
    · rw [h]; exact .terminator
    · rw [h]; trivial
    · rw [parseOne_flag hd h1 h2 h3]
      unfold setFlag
      rcases cutEquals_inv rest with ⟨_, hc⟩ | ⟨name, text, _, rfl, hc⟩
      · rw [hc]
        simp only
        cases hf : formal rest with
        | none => trivial
        | some k =>
          cases k with
          | bool => exact fun fs r hr => .switch hd hf hr
          | string =>
            cases args with
            | nil => trivial
            | cons a args => exact fun fs r hr => .separate hd hf hr
      · rw [hc]
        simp only
        cases hf : formal name with
        | none => trivial
        | some k =>
          cases k with
          | bool =>
            cases hb : parseBool text with
            | none => simp only [hb]
            | some b =>
              simp only [hb]
              intro fs r hr
              rw [← List.append_assoc]
              exact .assigned hd hf ((parseBool_iff text b).1 hb) hr
          | string =>
            intro fs r hr
            rw [← List.append_assoc]
            exact .assigned hd hf (.string text) hr

theorem flagParse_sound {formal : Name → Option FlagKind} : ∀ (n : Nat) (args : List Name) {fs rest},
    flagParse formal n args = some (fs, rest) → Flags formal args fs rest
  | 0, _, _, _, h => by cases h
  | n + 1, args, fs, rest, h => by
    have hs := parseOne_sound (formal := formal) args
    rw [flagParse] at h
    cases hp : parseOne formal args with
    | done r => rw [hp] at h hs; simp only [Option.some.injEq, Prod.mk.injEq] at h; obtain ⟨rfl, rfl⟩ := h; exact hs
    | error => rw [hp] at h; cases h
    | set name v args' =>
      rw [hp] at h hs
      simp only at h
      obtain ⟨⟨fs', r'⟩, h1, h2⟩ := Option.map_eq_some_iff.1 h
      cases h2
      exact hs _ _ (flagParse_sound n args' h1)

theorem flagParse_complete {formal : Name → Option FlagKind} (hw : Writable formal) {args : List Name} {fs rest}
    (h : Flags formal args fs rest) : ∀ n, args.length < n → flagParse formal n args = some (fs, rest) := by
  have head : ∀ {name : Name} (t : List Rune), name ≠ [] → (name ++ t).head? = name.head? := by
    intro name t h
    cases name with
    | nil => exact absurd rfl h
    | cons => rfl
  have noEq : ∀ {name : Name}, 61 ∉ name → name.head? ≠ some 61 := by
    intro name h hn
    cases name with
    | nil => cases hn
    | cons c t => cases hn; exact h (by simp)
  induction h with
  | nil =>
    intro n hn
    obtain ⟨m, rfl⟩ : ∃ m, n = m + 1 := ⟨n - 1, by omega⟩
    rfl
  | @positional a args hp =>
    intro n hn
    obtain ⟨m, rfl⟩ : ∃ m, n = m + 1 := ⟨n - 1, by omega⟩
    have : parseOne formal (a :: args) = .done (a :: args) := by
      rw [parseOne, if_pos]
      rcases hp with h | rfl
      · exact .inr h
      · exact .inl (by decide)
    rw [flagParse, this]
  | @terminator args =>
    intro n hn
    obtain ⟨m, rfl⟩ : ∃ m, n = m + 1 := ⟨n - 1, by omega⟩
    rw [flagParse, show parseOne formal ([45, 45] :: args) = .done args by simp [parseOne]]
  | @assigned d name text k v args fs rest hd hf hv _ ih =>
    intro n hn
    obtain ⟨m, rfl⟩ : ∃ m, n = m + 1 := ⟨n - 1, by omega⟩
    obtain ⟨h1, h2, h3⟩ := hw name k hf
    have hp : parseOne formal ((d ++ name ++ 61 :: text) :: args) = .set name v args := by
      rw [List.append_assoc, parseOne_flag hd (by simp) (by rw [head _ h1]; exact h2) (by rw [head _ h1]; exact noEq h3),
        cutEquals_value name text h3, setFlag.eq_def, hf]
      cases hv with
      | string => rfl
      | yes h => simp only [(parseBool_iff text true).2 (.yes h)]
      | no h => simp only [(parseBool_iff text false).2 (.no h)]
    rw [flagParse, hp]
    simp only
    rw [ih m (by simp at hn; omega)]
    rfl
  | @separate d name text args fs rest hd hf _ ih =>
    intro n hn
    obtain ⟨m, rfl⟩ : ∃ m, n = m + 1 := ⟨n - 1, by omega⟩
    obtain ⟨h1, h2, h3⟩ := hw name _ hf
    have hp : parseOne formal ((d ++ name) :: text :: args) = .set name (.string text) args := by
      rw [parseOne_flag hd h1 h2 (noEq h3), cutEquals_none name h3, setFlag.eq_def, hf]
    rw [flagParse, hp]
    simp only
    rw [ih m (by simp at hn; omega)]
    rfl
  | @switch d name args fs rest hd hf _ ih =>
    intro n hn
    obtain ⟨m, rfl⟩ : ∃ m, n = m + 1 := ⟨n - 1, by omega⟩
    obtain ⟨h1, h2, h3⟩ := hw name _ hf
    have hp : parseOne formal ((d ++ name) :: args) = .set name (.bool true) args := by
      rw [parseOne_flag hd h1 h2 (noEq h3), cutEquals_none name h3, setFlag.eq_def, hf]
    rw [flagParse, hp]
    simp only
    rw [ih m (by simp at hn; omega)]
    rfl

/-- The flags of the commands are the documented ones. -/
theorem formal_documented (c : Command) : c.formal = documented c := by
  funext name
  have key : ∀ c : Command, ∀ name ∈ ["syntax", "syntax-string", "input", "input-string", "pretty", "indent", "export",
      "package-name"].map runes, c.formal name = documented c name := by
    intro c; cases c <;> decide
  by_cases h : name ∈ ["syntax", "syntax-string", "input", "input-string", "pretty", "indent", "export", "package-name"].map runes
  · exact key c name h
  · have h1 : c.formal name = none := by
      cases hf : c.formal name with
      | none => rfl
      | some k =>
        have key2 : ∀ c : Command, ∀ x ∈ c.flags, x.1 ∈ ["syntax", "syntax-string", "input", "input-string", "pretty",
            "indent", "export", "package-name"].map runes := by
          intro c; cases c <;> decide
        exact absurd (key2 c _ (formal_mem hf)) h
    rw [h1]
    simp only [List.map_cons, List.map_nil, List.mem_cons, List.not_mem_nil, or_false, not_or] at h
    unfold documented
    simp [h]

theorem flagParse_iff (c : Command) (args : List Name) (fs : List (Name × FlagValue)) (rest : List Name) :
    flagParse c.formal (args.length + 1) args = some (fs, rest) ↔ Flags (documented c) args fs rest := by
  rw [← formal_documented]
  exact ⟨flagParse_sound _ _, fun h => flagParse_complete (command_writable c) h _ (by omega)⟩

/-! ### The variables -/

/-- The value has the type of the flag. -/
def Typed (x : Name × FlagValue) : Prop :=
  match x.2 with
  | .string _ => x.1 ∈ ["syntax-string", "syntax", "input-string", "input", "indent", "package-name"].map runes
  | .bool _ => x.1 ∈ ["pretty", "export"].map runes

theorem flags_typed {c : Command} {args : List Name} {fs rest} (h : Flags (documented c) args fs rest) : ∀ x ∈ fs, Typed x := by
  rw [← formal_documented] at h
  have key1 : ∀ (c : Command), ∀ x ∈ c.flags, x.2 = .string →
      x.1 ∈ ["syntax-string", "syntax", "input-string", "input", "indent", "package-name"].map runes := by
    intro c; cases c <;> decide
  have key2 : ∀ (c : Command), ∀ x ∈ c.flags, x.2 = .bool → x.1 ∈ ["pretty", "export"].map runes := by
    intro c; cases c <;> decide
  induction h with
  | nil => simp
  | positional => simp
  | terminator => simp
  | @assigned d name text k v args fs rest hd hf hv _ ih =>
    intro x hx
    rcases List.mem_cons.1 hx with rfl | hx
    · have h1 := key1 c _ (formal_mem hf)
      have h2 := key2 c _ (formal_mem hf)
      cases hv with
      | string => exact h1 rfl
      | yes => exact h2 rfl
      | no => exact h2 rfl
    · exact ih x hx
  | separate hd hf _ ih =>
    intro x hx
    rcases List.mem_cons.1 hx with rfl | hx
    · exact key1 c _ (formal_mem hf) rfl
    · exact ih x hx
  | switch hd hf _ ih =>
    intro x hx
    rcases List.mem_cons.1 hx with rfl | hx
    · exact key2 c _ (formal_mem hf) rfl
    · exact ih x hx

theorem given_snoc (fs : List (Name × FlagValue)) (x : Name × FlagValue) (name : String) :
    given (fs ++ [x]) name = if x.1 = runes name then some x.2 else given fs name := by
  unfold given
  rw [List.reverse_append]
  simp only [List.reverse_cons, List.reverse_nil, List.nil_append, List.singleton_append, List.find?_cons]
  by_cases h : x.1 = runes name
  · simp [h]
  · rw [if_neg h, beq_false_of_ne h]

/-- The variables have the last values given. -/
theorem settings_eq : ∀ (n : Nat) (fs : List (Name × FlagValue)), fs.length = n → (∀ x ∈ fs, Typed x) →
    fs.foldl Settings.set {} =
      { syntaxString := stringFlag fs "syntax-string", syntaxFile := stringFlag fs "syntax",
        inputString := stringFlag fs "input-string", inputFile := stringFlag fs "input", pretty := boolFlag fs "pretty",
        indent := stringFlag fs "indent", exported := boolFlag fs "export", packageName := stringFlag fs "package-name" }
  | 0, fs, hl, _ => by
    have := List.eq_nil_of_length_eq_zero hl
    subst this
    rfl
  | n + 1, fs, hl, ht => by
    have hne : fs ≠ [] := by rintro rfl; simp at hl
    have hs := List.dropLast_concat_getLast hne
    generalize hg : fs.dropLast = gs at hs
    generalize fs.getLast hne = x at hs
    subst hs
    have ih := settings_eq n gs (by simpa using hl) (fun y hy => ht y (by simp [hy]))
    have hx := ht x (by simp)
    rw [List.foldl_append, ih]
    obtain ⟨name, v⟩ := x
    cases v with
    | string t =>
      simp only [Typed, List.map_cons, List.map_nil, List.mem_cons, List.not_mem_nil, or_false] at hx
      rcases hx with rfl | rfl | rfl | rfl | rfl | rfl <;>
        simp [Settings.set, stringFlag, boolFlag, given_snoc, runes]
    | bool b =>
      simp only [Typed, List.map_cons, List.map_nil, List.mem_cons, List.not_mem_nil, or_false] at hx
      rcases hx with rfl | rfl <;>
        simp [Settings.set, stringFlag, boolFlag, given_snoc, runes]

end Treerack
