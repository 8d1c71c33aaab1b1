import Verif.Spec.JsonTree

/-
A JSON text has a single value.
-/

namespace Treerack.Spec.JsonText

/-- The characters of numbers. -/
def NumChar (c : Rune) : Prop := c ∈ runes "-+.eE0123456789"

/-- What the whitespace and the characters in strings have to be like. -/
structure Sane (F : Flavor) : Prop where
  space : ∀ c, F.space c → c ∉ runes "-+.eE0123456789tfn{}[]\",:"
  quote : ¬ F.plain 0x22
  backslash : ¬ F.plain 0x5C

variable {F : Flavor}

/-- What comes behind a value. -/
def Stop (r : List Rune) : Prop := ∀ c s, r = c :: s → ¬ NumChar c

theorem space_inj (P : Rune → Prop) : ∀ {w w' : List Rune} {c c' : Rune} {x x' : List Rune}, (∀ a ∈ w, P a) → (∀ a ∈ w', P a) →
    ¬ P c → ¬ P c' → w ++ c :: x = w' ++ c' :: x' → w = w' ∧ c = c' ∧ x = x'
  | [], [], _, _, _, _, _, _, _, _, e => ⟨rfl, List.cons.inj e⟩
  | [], a :: w', _, _, _, _, _, h2, h3, _, e => by
    obtain ⟨rfl, -⟩ := List.cons.inj e
    exact absurd (h2 _ (List.mem_cons_self ..)) h3
  | a :: w, [], _, _, _, _, h1, _, _, h4, e => by
    obtain ⟨rfl, -⟩ := List.cons.inj e
    exact absurd (h1 _ (List.mem_cons_self ..)) h4
  | a :: w, b :: w', _, _, _, _, h1, h2, h3, h4, e => by
    obtain ⟨rfl, e'⟩ := List.cons.inj e
    obtain ⟨rfl, h5, h6⟩ := space_inj P (fun x hx => h1 x (List.mem_cons_of_mem _ hx)) (fun x hx => h2 x (List.mem_cons_of_mem _ hx)) h3 h4 e'
    exact ⟨rfl, h5, h6⟩

/-! ### Numbers -/

theorem digit_num {c : Rune} (h : Digit c) : NumChar c := by
  have aux : ∀ d : Nat, 0x30 ≤ d → d ≤ 0x39 → d ∈ runes "-+.eE0123456789" := by
    intro d h1 h2
    have : d = 48 ∨ d = 49 ∨ d = 50 ∨ d = 51 ∨ d = 52 ∨ d = 53 ∨ d = 54 ∨ d = 55 ∨ d = 56 ∨ d = 57 := by omega
    rcases this with rfl | rfl | rfl | rfl | rfl | rfl | rfl | rfl | rfl | rfl <;> decide
  exact aux c h.1 h.2

theorem number_chars {t : List Rune} (h : Number t) : (∃ c s, t = c :: s) ∧ ∀ c ∈ t, NumChar c := by
  obtain ⟨m, i, f, e, h1, h2, h3, h4, rfl⟩ := h
  have hm : ∀ c ∈ m, NumChar c := by
    rcases h1 with rfl | rfl
    · simp
    · intro c hc; cases List.mem_singleton.1 hc; unfold NumChar; decide
  have hi : ∀ c ∈ i, NumChar c := by
    rcases h2 with rfl | ⟨d, ds, g1, g2, g3, rfl⟩
    · intro c hc; cases List.mem_singleton.1 hc; unfold NumChar; decide
    · intro c hc
      rcases List.mem_cons.1 hc with rfl | hc
      · exact digit_num ⟨Nat.le_of_succ_le g1, g2⟩
      · exact digit_num (g3 c hc)
  have hf : ∀ c ∈ f, NumChar c := by
    rcases h3 with rfl | ⟨ds, g1, rfl⟩
    · simp
    · intro c hc
      rcases List.mem_cons.1 hc with rfl | hc
      · unfold NumChar; decide
      · exact digit_num (g1.2 c hc)
  have he : ∀ c ∈ e, NumChar c := by
    rcases h4 with rfl | ⟨x, sign, ds, g1, g2, g3, rfl⟩
    · simp
    · intro c hc
      rcases List.mem_cons.1 hc with rfl | hc
      · rcases g1 with rfl | rfl <;> (unfold NumChar; decide)
      · rcases List.mem_append.1 hc with hc | hc
        · rcases g2 with rfl | rfl | rfl
          · cases hc
          · cases List.mem_singleton.1 hc; unfold NumChar; decide
          · cases List.mem_singleton.1 hc; unfold NumChar; decide
        · exact digit_num (g3.2 c hc)
  constructor
  · have : m ++ i ++ f ++ e ≠ [] := by
      rcases h2 with rfl | ⟨d, ds, g1, g2, g3, rfl⟩ <;> simp
    exact List.exists_cons_of_ne_nil this
  · intro c hc
    simp only [List.mem_append] at hc
    rcases hc with ((hc | hc) | hc) | hc
    · exact hm c hc
    · exact hi c hc
    · exact hf c hc
    · exact he c hc

theorem number_inj : ∀ {t t' r r' : List Rune}, (∀ c ∈ t, NumChar c) → (∀ c ∈ t', NumChar c) → Stop r → Stop r' → t ++ r = t' ++ r' →
    t = t' ∧ r = r'
  | [], [], _, _, _, _, _, _, e => ⟨rfl, e⟩
  | [], a :: t', _, _, _, h2, h3, _, e => absurd (h2 a (List.mem_cons_self ..)) (h3 _ _ e)
  | a :: t, [], _, _, h1, _, _, h4, e => absurd (h1 a (List.mem_cons_self ..)) (h4 _ _ e.symm)
  | a :: t, b :: t', _, _, h1, h2, h3, h4, e => by
    obtain ⟨rfl, e'⟩ := List.cons.inj e
    obtain ⟨rfl, h5⟩ := number_inj (fun x hx => h1 x (List.mem_cons_of_mem _ hx)) (fun x hx => h2 x (List.mem_cons_of_mem _ hx)) h3 h4 e'
    exact ⟨rfl, h5⟩

/-! ### Strings -/

variable (hF : Sane F)
include hF

theorem chars_inj {cs : List Rune} (h : Chars F cs) : ∀ {cs' r r' : List Rune}, Chars F cs' → cs ++ 0x22 :: r = cs' ++ 0x22 :: r' →
    cs = cs' ∧ r = r' := by
  induction h with
  | nil =>
    intro cs' r r' h' e
    cases h' with
    | nil => exact ⟨rfl, (List.cons.inj e).2⟩
    | plain h _ => obtain ⟨rfl, -⟩ := List.cons.inj e; exact absurd h hF.quote
    | escape _ _ => obtain ⟨h, -⟩ := List.cons.inj e; exact absurd h (by decide)
    | unicode _ _ _ _ _ => obtain ⟨h, -⟩ := List.cons.inj e; exact absurd h (by decide)
  | plain h _ ih =>
    intro cs' r r' h' e
    cases h' with
    | nil => obtain ⟨rfl, -⟩ := List.cons.inj e; exact absurd h hF.quote
    | plain h1 h2 =>
      obtain ⟨rfl, e'⟩ := List.cons.inj e
      obtain ⟨rfl, h3⟩ := ih h2 e'
      exact ⟨rfl, h3⟩
    | escape _ _ => obtain ⟨rfl, -⟩ := List.cons.inj e; exact absurd h hF.backslash
    | unicode _ _ _ _ _ => obtain ⟨rfl, -⟩ := List.cons.inj e; exact absurd h hF.backslash
  | escape h _ ih =>
    intro cs' r r' h' e
    cases h' with
    | nil => obtain ⟨h, -⟩ := List.cons.inj e; exact absurd h (by decide)
    | plain h1 _ => obtain ⟨rfl, -⟩ := List.cons.inj e; exact absurd h1 hF.backslash
    | escape h1 h2 =>
      obtain ⟨-, e1⟩ := List.cons.inj e
      obtain ⟨rfl, e'⟩ := List.cons.inj e1
      obtain ⟨rfl, h3⟩ := ih h2 e'
      exact ⟨rfl, h3⟩
    | unicode _ _ _ _ _ =>
      obtain ⟨-, e⟩ := List.cons.inj e
      obtain ⟨rfl, -⟩ := List.cons.inj e
      exact absurd h (by decide)
  | unicode _ _ _ _ _ ih =>
    intro cs' r r' h' e
    cases h' with
    | nil => obtain ⟨h, -⟩ := List.cons.inj e; exact absurd h (by decide)
    | plain h1 _ => obtain ⟨rfl, -⟩ := List.cons.inj e; exact absurd h1 hF.backslash
    | escape h1 h2 =>
      obtain ⟨-, e⟩ := List.cons.inj e
      obtain ⟨rfl, -⟩ := List.cons.inj e
      exact absurd h1 (by decide)
    | unicode _ _ _ _ h2 =>
      simp only [List.cons_append, List.cons.injEq, true_and] at e
      obtain ⟨rfl, rfl, rfl, rfl, e⟩ := e
      obtain ⟨rfl, h3⟩ := ih h2 e
      exact ⟨rfl, h3⟩

theorem string_inj {s s' r r' : List Rune} (h : String F s) (h' : String F s') (e : s ++ r = s' ++ r') : s = s' ∧ r = r' := by
  obtain ⟨cs, h, rfl⟩ := h
  obtain ⟨cs', h', rfl⟩ := h'
  simp only [List.cons_append, List.append_assoc, List.cons.injEq, true_and, List.nil_append] at e
  obtain ⟨rfl, e'⟩ := chars_inj hF h h' e
  exact ⟨rfl, e'⟩

/-! ### Lists -/

omit hF in
/-- The items behind the first one, from the left. -/
inductive Rest {α : Type} (F : Flavor) (P : List Rune → α → Prop) : List Rune → List α → Prop
  | nil : Rest F P [] []
  | cons {w w' u t : List Rune} {v : α} {vs : List α} : Space F w → Space F w' → P u v → Rest F P t vs →
      Rest F P (w ++ 0x2C :: (w' ++ u ++ t)) (v :: vs)

omit hF in
theorem Rest.snoc {α : Type} {P : List Rune → α → Prop} {w w' u : List Rune} {v : α} (h1 : Space F w) (h2 : Space F w') (h3 : P u v) :
    ∀ {t : List Rune} {vs : List α}, Rest F P t vs → Rest F P (t ++ w ++ 0x2C :: (w' ++ u)) (vs ++ [v])
  | _, _, .nil => by simpa using Rest.cons h1 h2 h3 .nil
  | _, _, .cons g1 g2 g3 g4 => by simpa using Rest.cons g1 g2 g3 (Rest.snoc h1 h2 h3 g4)

omit hF in
theorem values_rest : ∀ {t : List Rune} {vs : List JValue}, ValuesOf F t vs →
    ∃ u r v vs', ValueOf F u v ∧ Rest F (ValueOf F) r vs' ∧ t = u ++ r ∧ vs = v :: vs'
  | _, _, .one h => ⟨_, [], _, [], h, .nil, by simp, rfl⟩
  | _, _, .more h1 h2 h3 h4 => by
    obtain ⟨u, r, v, vs', g1, g2, rfl, rfl⟩ := values_rest h1
    exact ⟨u, _, v, _, g1, g2.snoc h2 h3 h4, by simp [show runes "," = [0x2C] by decide], rfl⟩

omit hF in
theorem members_rest : ∀ {t : List Rune} {ms : List (List Rune × JValue)}, MembersOf F t ms →
    ∃ u r m ms', MemberOf F u m ∧ Rest F (MemberOf F) r ms' ∧ t = u ++ r ∧ ms = m :: ms'
  | _, _, .one h => ⟨_, [], _, [], h, .nil, by simp, rfl⟩
  | _, _, .more h1 h2 h3 h4 => by
    obtain ⟨u, r, v, vs', g1, g2, rfl, rfl⟩ := members_rest h1
    exact ⟨u, _, v, _, g1, g2.snoc h2 h3 h4, by simp [show runes "," = [0x2C] by decide], rfl⟩

omit hF in
/-- A list in brackets. -/
def Bracketed {α : Type} (F : Flavor) (P : List Rune → α → Prop) (l r : Rune) (t : List Rune) (vs : List α) : Prop :=
  (∃ w, Space F w ∧ t = l :: (w ++ [r]) ∧ vs = []) ∨
  ∃ w u v t' vs' w', Space F w ∧ P u v ∧ Rest F P t' vs' ∧ Space F w' ∧ t = l :: (w ++ (u ++ (t' ++ (w' ++ [r])))) ∧ vs = v :: vs'

omit hF in
/-- The texts determine what they stand for, up to a length. -/
def Single (n : Nat) {α : Type} (P : List Rune → α → Prop) : Prop :=
  ∀ {t v r t' v' r'}, t.length < n → P t v → P t' v' → t ++ r = t' ++ r' → Stop r → Stop r' → t = t' ∧ v = v'

theorem sane_stop {c : Rune} {s : List Rune} (h : F.space c) : Stop (c :: s) := by
  rintro _ _ e hn
  obtain ⟨rfl, -⟩ := List.cons.inj e
  refine hF.space _ h ?_
  rw [show runes "-+.eE0123456789tfn{}[]\",:" = runes "-+.eE0123456789" ++ runes "tfn{}[]\",:" by decide]
  exact List.mem_append_left _ hn

theorem space_stop {w : List Rune} {c : Rune} {s : List Rune} (h : Space F w) (hc : ¬ NumChar c) : Stop (w ++ c :: s) := by
  cases w with
  | nil => intro _ _ e; obtain ⟨rfl, -⟩ := List.cons.inj e; exact hc
  | cons a w => exact sane_stop hF (h a (List.mem_cons_self ..))

section
variable {α : Type} {P : List Rune → α → Prop} {n : Nat} (hP : Single n P)
  (hh : ∀ {u v}, P u v → ∃ c s, u = c :: s ∧ ¬ F.space c ∧ c ∉ runes "]}")

include hP hh

theorem rest_stop {t : List Rune} {vs : List α} {w : List Rune} {c : Rune} {s : List Rune} (h : Rest F P t vs) (hw : Space F w)
    (hc : ¬ NumChar c) : Stop (t ++ (w ++ c :: s)) := by
  cases h with
  | nil => exact space_stop hF hw hc
  | cons h1 h2 h3 h4 =>
    rw [List.append_assoc, List.cons_append]
    exact space_stop hF h1 (by unfold NumChar; decide)

theorem rest_inj {c : Rune} (hc : ¬ NumChar c) (hs : ¬ F.space c) (hcomma : c ≠ 0x2C) : ∀ {t : List Rune} {vs : List α}, Rest F P t vs →
    ∀ {t' : List Rune} {vs' : List α} {w w' r r' : List Rune}, t.length < n → Rest F P t' vs' → Space F w → Space F w' →
      t ++ (w ++ c :: r) = t' ++ (w' ++ c :: r') → t = t' ∧ vs = vs' ∧ w = w' ∧ r = r' := by
  have hcs : ¬ F.space 0x2C := fun h => hF.space _ h (by decide)
  intro t vs h
  induction h with
  | nil =>
    intro t' vs' w w' r r' hl h' hw hw' e
    cases h' with
    | nil =>
      obtain ⟨h1, -, h2⟩ := space_inj F.space hw hw' hs hs (by simpa using e)
      exact ⟨rfl, rfl, h1, h2⟩
    | cons h1 h2 h3 h4 =>
      obtain ⟨-, h5, -⟩ := space_inj F.space hw h1 hs hcs (by simpa using e)
      exact absurd h5 hcomma
  | @cons a b u t v vs h1 h2 h3 h4 ih =>
    intro t' vs' w w' r r' hl h' hw hw' e
    cases h' with
    | nil =>
      obtain ⟨-, h5, -⟩ := space_inj F.space h1 hw' hcs hs (by simpa using e)
      exact absurd h5.symm hcomma
    | @cons a' b' u' t1 v' vs1 g1 g2 g3 g4 =>
      obtain ⟨rfl, -, e1⟩ := space_inj F.space (x := b ++ u ++ t ++ (w ++ c :: r)) (x' := b' ++ u' ++ t1 ++ (w' ++ c :: r')) h1 g1 hcs hcs
        (by simpa using e)
      obtain ⟨x, s, rfl, hx, -⟩ := hh h3
      obtain ⟨x', s', rfl, hx', -⟩ := hh g3
      obtain ⟨rfl, rfl, e2⟩ := space_inj F.space (x := s ++ t ++ (w ++ c :: r)) (x' := s' ++ t1 ++ (w' ++ c :: r')) h2 g2 hx hx'
        (by simpa using e1)
      simp only [List.length_append, List.length_cons] at hl
      obtain ⟨e3, rfl⟩ := hP (r := t ++ (w ++ c :: r)) (r' := t1 ++ (w' ++ c :: r')) (by simp only [List.length_cons]; omega) h3 g3
        (by simpa using e2) (rest_stop hF hP hh h4 hw hc) (rest_stop hF hP hh g4 hw' hc)
      obtain ⟨-, rfl⟩ := List.cons.inj e3
      obtain ⟨rfl, rfl, h5, h6⟩ := ih (by omega) g4 hw hw' (List.append_cancel_left (as := s) (by rw [← List.append_assoc, e2, List.append_assoc]))
      exact ⟨rfl, rfl, h5, h6⟩

theorem bracketed_inj {l r : Rune} (hr : r ∈ runes "]}") {t t' x x' : List Rune} {vs vs' : List α} (hl : t.length < n + 1)
    (h : Bracketed F P l r t vs) (h' : Bracketed F P l r t' vs') (e : t ++ x = t' ++ x') : t = t' ∧ vs = vs' := by
  have hrn : ¬ NumChar r ∧ ¬ F.space r ∧ r ≠ 0x2C := by
    have : r = 93 ∨ r = 125 := by
      rw [show runes "]}" = [93, 125] by decide] at hr
      simpa using hr
    rcases this with rfl | rfl
    · exact ⟨by unfold NumChar; decide, fun h => hF.space _ h (by decide), by decide⟩
    · exact ⟨by unfold NumChar; decide, fun h => hF.space _ h (by decide), by decide⟩
  rcases h with ⟨w, h1, rfl, rfl⟩ | ⟨w, u, v, t1, vs1, w1, h1, h2, h3, h4, rfl, rfl⟩ <;>
    rcases h' with ⟨w', g1, rfl, rfl⟩ | ⟨w', u', v', t2, vs2, w2, g1, g2, g3, g4, rfl, rfl⟩
  · obtain ⟨rfl, -⟩ := space_inj F.space (x := x) (x' := x') h1 g1 hrn.2.1 hrn.2.1 (by simpa using e)
    exact ⟨rfl, rfl⟩
  · obtain ⟨c, s, rfl, hc, hc'⟩ := hh g2
    obtain ⟨-, rfl, -⟩ := space_inj F.space (x := x) (x' := s ++ (t2 ++ (w2 ++ r :: x'))) h1 g1 hrn.2.1 hc (by simpa using e)
    exact absurd hr hc'
  · obtain ⟨c, s, rfl, hc, hc'⟩ := hh h2
    obtain ⟨-, rfl, -⟩ := space_inj F.space (x := s ++ (t1 ++ (w1 ++ r :: x))) (x' := x') h1 g1 hc hrn.2.1 (by simpa using e)
    exact absurd hr hc'
  · obtain ⟨c, s, rfl, hc, -⟩ := hh h2
    obtain ⟨c', s', rfl, hc', -⟩ := hh g2
    obtain ⟨rfl, rfl, e1⟩ := space_inj F.space (x := s ++ (t1 ++ (w1 ++ r :: x))) (x' := s' ++ (t2 ++ (w2 ++ r :: x'))) h1 g1 hc hc'
      (by simpa using e)
    simp only [List.length_append, List.length_cons] at hl
    obtain ⟨e2, rfl⟩ := hP (r := t1 ++ (w1 ++ r :: x)) (r' := t2 ++ (w2 ++ r :: x')) (by simp only [List.length_cons]; omega) h2 g2
      (by simpa using e1) (rest_stop hF hP hh h3 h4 hrn.1) (rest_stop hF hP hh g3 g4 hrn.1)
    obtain ⟨-, rfl⟩ := List.cons.inj e2
    obtain ⟨rfl, rfl, rfl, -⟩ := rest_inj hF hP hh hrn.1 hrn.2.1 hrn.2.2 h3 (by omega) g3 h4 g4 (List.append_cancel_left e1)
    exact ⟨rfl, rfl⟩

end

/-! ### Values -/

omit hF in
/-- What a value that begins with the character looks like. -/
def Shape (F : Flavor) (c : Rune) (t : List Rune) (v : JValue) : Prop :=
  if c = 0x74 then t = runes "true" ∧ v = .true
  else if c = 0x66 then t = runes "false" ∧ v = .false
  else if c = 0x6E then t = runes "null" ∧ v = .null
  else if c = 0x22 then String F t ∧ v = .string t
  else if c = 0x7B then ∃ ms, Bracketed F (MemberOf F) 0x7B 0x7D t ms ∧ v = .object ms
  else if c = 0x5B then ∃ vs, Bracketed F (ValueOf F) 0x5B 0x5D t vs ∧ v = .array vs
  else Number t ∧ v = .number t

theorem value_shape {t : List Rune} {v : JValue} (h : ValueOf F t v) :
    ∃ c s, t = c :: s ∧ ¬ F.space c ∧ c ∉ runes "]}" ∧ Shape F c t v := by
  have ns : ∀ c, c ∈ runes "-+.eE0123456789tfn{}[]\",:" → ¬ F.space c := fun c h1 h2 => hF.space c h2 h1
  cases h with
  | true => exact ⟨0x74, _, rfl, ns _ (by decide), by decide, by simp [Shape]⟩
  | false => exact ⟨0x66, _, rfl, ns _ (by decide), by decide, by simp [Shape]⟩
  | null => exact ⟨0x6E, _, rfl, ns _ (by decide), by decide, by simp [Shape]⟩
  | string h =>
    have h' := h
    obtain ⟨cs, -, rfl⟩ := h'
    exact ⟨_, _, rfl, ns _ (by decide), by decide, by simp [Shape, h]⟩
  | number h =>
    obtain ⟨⟨c, s, rfl⟩, h1⟩ := number_chars h
    have hc := h1 c (List.mem_cons_self ..)
    have hn : ∀ x, ¬ NumChar x → c ≠ x := fun x hx e => hx (e ▸ hc)
    refine ⟨c, s, rfl, ns _ ?_, ?_, ?_⟩
    · rw [show runes "-+.eE0123456789tfn{}[]\",:" = runes "-+.eE0123456789" ++ runes "tfn{}[]\",:" by decide]
      exact List.mem_append_left _ hc
    · rw [show runes "]}" = [93, 125] by decide]
      have := hn 93 (by unfold NumChar; decide)
      have := hn 125 (by unfold NumChar; decide)
      simp [*]
    · rw [Shape, if_neg (hn _ (by unfold NumChar; decide)), if_neg (hn _ (by unfold NumChar; decide)),
        if_neg (hn _ (by unfold NumChar; decide)), if_neg (hn _ (by unfold NumChar; decide)),
        if_neg (hn _ (by unfold NumChar; decide)), if_neg (hn _ (by unfold NumChar; decide))]
      exact ⟨h, rfl⟩
  | @emptyObject w h =>
    refine ⟨0x7B, w ++ [0x7D], by simp [runes], ns _ (by decide), by decide, ?_⟩
    simp only [Shape]
    exact ⟨[], .inl ⟨w, h, by simp [runes], rfl⟩, rfl⟩
  | @object w w' t ms h1 h2 h3 =>
    refine ⟨0x7B, w ++ (t ++ (w' ++ [0x7D])), by simp [runes], ns _ (by decide), by decide, ?_⟩
    simp only [Shape]
    obtain ⟨u, r, m, ms', g1, g2, rfl, rfl⟩ := members_rest h2
    exact ⟨_, .inr ⟨w, u, m, r, ms', w', h1, g1, g2, h3, by simp [runes], rfl⟩, rfl⟩
  | @emptyArray w h =>
    refine ⟨0x5B, w ++ [0x5D], by simp [runes], ns _ (by decide), by decide, ?_⟩
    simp only [Shape]
    exact ⟨[], .inl ⟨w, h, by simp [runes], rfl⟩, rfl⟩
  | @array w w' t ms h1 h2 h3 =>
    refine ⟨0x5B, w ++ (t ++ (w' ++ [0x5D])), by simp [runes], ns _ (by decide), by decide, ?_⟩
    simp only [Shape]
    obtain ⟨u, r, m, ms', g1, g2, rfl, rfl⟩ := values_rest h2
    exact ⟨_, .inr ⟨w, u, m, r, ms', w', h1, g1, g2, h3, by simp [runes], rfl⟩, rfl⟩

theorem value_head' {t : List Rune} {v : JValue} (h : ValueOf F t v) : ∃ c s, t = c :: s ∧ ¬ F.space c ∧ c ∉ runes "]}" := by
  obtain ⟨c, s, h1, h2, h3, -⟩ := value_shape hF h
  exact ⟨c, s, h1, h2, h3⟩

theorem member_head {t : List Rune} {m : List Rune × JValue} (h : MemberOf F t m) : ∃ c s, t = c :: s ∧ ¬ F.space c ∧ c ∉ runes "]}" := by
  cases h with
  | mk h1 _ _ _ =>
    obtain ⟨cs, -, rfl⟩ := h1
    exact ⟨0x22, _, by simp; rfl, fun h => hF.space _ h (by decide), by decide⟩

theorem member_single {n : Nat} (hP : Single n (ValueOf F)) : Single n (MemberOf F) := by
  intro t v r t' v' r' hl h h' e hr hr'
  have hcs : ¬ F.space 0x3A := fun h => hF.space _ h (by decide)
  cases h with
  | @mk s w1 w2 u v h1 h2 h3 h4 =>
    cases h' with
    | @mk s' w1' w2' u' v' g1 g2 g3 g4 =>
      rw [show runes ":" = [0x3A] by decide] at *
      obtain ⟨rfl, e1⟩ := string_inj hF (r := w1 ++ 0x3A :: (w2 ++ (u ++ r))) (r' := w1' ++ 0x3A :: (w2' ++ (u' ++ r'))) h1 g1
        (by simpa using e)
      obtain ⟨rfl, -, e2⟩ := space_inj F.space h2 g2 hcs hcs e1
      obtain ⟨c, x, rfl, hc, -⟩ := value_head' hF h4
      obtain ⟨c', x', rfl, hc', -⟩ := value_head' hF g4
      obtain ⟨rfl, rfl, e3⟩ := space_inj F.space (x := x ++ r) (x' := x' ++ r') h3 g3 hc hc' (by simpa using e2)
      simp only [List.length_append, List.length_cons] at hl
      obtain ⟨e4, rfl⟩ := hP (r := r) (r' := r') (by simp only [List.length_cons]; omega) h4 g4 (by simpa using e3) hr hr'
      obtain ⟨-, rfl⟩ := List.cons.inj e4
      exact ⟨rfl, rfl⟩

theorem value_single (n : Nat) : Single n (ValueOf F) := by
  induction n with
  | zero => intro _ _ _ _ _ _ hl; exact absurd hl (Nat.not_lt_zero _)
  | succ n ih =>
    intro t v r t' v' r' hl h h' e hr hr'
    obtain ⟨c, s, rfl, -, -, hs⟩ := value_shape hF h
    obtain ⟨c', s', rfl, -, -, hs'⟩ := value_shape hF h'
    obtain ⟨rfl, e1⟩ := List.cons.inj e
    unfold Shape at hs hs'
    split at hs
    · rename_i k
      rw [if_pos k] at hs'
      rw [hs.1, hs.2, hs'.1, hs'.2]; exact ⟨rfl, rfl⟩
    · rename_i k1
      rw [if_neg k1] at hs'
      split at hs
      · rename_i k
        rw [if_pos k] at hs'
        rw [hs.1, hs.2, hs'.1, hs'.2]; exact ⟨rfl, rfl⟩
      · rename_i k2
        rw [if_neg k2] at hs'
        split at hs
        · rename_i k
          rw [if_pos k] at hs'
          rw [hs.1, hs.2, hs'.1, hs'.2]; exact ⟨rfl, rfl⟩
        · rename_i k3
          rw [if_neg k3] at hs'
          split at hs
          · rename_i k4
            rw [if_pos k4] at hs'
            obtain ⟨e2, -⟩ := string_inj hF hs.1 hs'.1 e
            rw [hs.2, hs'.2, e2]; exact ⟨rfl, rfl⟩
          · rename_i k4
            rw [if_neg k4] at hs'
            split at hs
            · rename_i k5
              rw [if_pos k5] at hs'
              obtain ⟨ms, g1, rfl⟩ := hs
              obtain ⟨ms', g2, rfl⟩ := hs'
              obtain ⟨e2, rfl⟩ := bracketed_inj hF (member_single hF ih) (member_head hF) (by decide) hl g1 g2 e
              exact ⟨e2, rfl⟩
            · rename_i k5
              rw [if_neg k5] at hs'
              split at hs
              · rename_i k6
                rw [if_pos k6] at hs'
                obtain ⟨ms, g1, rfl⟩ := hs
                obtain ⟨ms', g2, rfl⟩ := hs'
                obtain ⟨e2, rfl⟩ := bracketed_inj hF ih (value_head' hF) (by decide) hl g1 g2 e
                exact ⟨e2, rfl⟩
              · rename_i k6
                rw [if_neg k6] at hs'
                obtain ⟨e2, -⟩ := number_inj (number_chars hs.1).2 (number_chars hs'.1).2 hr hr' e
                rw [hs.2, hs'.2, e2]; exact ⟨rfl, rfl⟩

/-- A text has a single value. -/
theorem text_single {t : List Rune} {v v' : JValue} (h : TextOf F t v) (h' : TextOf F t v') : v = v' := by
  obtain ⟨w, u, w1, h1, h2, h3, rfl⟩ := h
  obtain ⟨w', u', w1', g1, g2, g3, e⟩ := h'
  have stop : ∀ {w}, Space F w → Stop w := by
    intro w hw
    cases w with
    | nil => intro _ _ e; cases e
    | cons a w => exact sane_stop hF (hw a (List.mem_cons_self ..))
  obtain ⟨c, s, rfl, hc, -⟩ := value_head' hF h2
  obtain ⟨c', s', rfl, hc', -⟩ := value_head' hF g2
  obtain ⟨-, rfl, e1⟩ := space_inj F.space (x := s ++ w1) (x' := s' ++ w1') h1 g1 hc hc' (by simpa using e)
  exact (value_single hF _ (Nat.lt_succ_self _) h2 g2 (by simpa using e1) (stop h3) (stop g3)).2

omit hF

theorem sane_example : Sane example_ where
  space c h := by rcases h with rfl | rfl | rfl | rfl | rfl | rfl <;> decide
  quote h := h.2.1 rfl
  backslash h := h.1 rfl

theorem sane_rfc : Sane rfc where
  space c h := by rcases h with rfl | rfl | rfl | rfl <;> decide
  quote h := by simp [rfc] at h
  backslash h := by simp [rfc] at h

/-! ### Texts and values -/

mutual

theorem ValueOf.value {F : Flavor} : ∀ {t : List Rune} {v : JValue}, ValueOf F t v → Value F t
  | _, _, .true => .true
  | _, _, .false => .false
  | _, _, .null => .null
  | _, _, .string h => .string h
  | _, _, .number h => .number h
  | _, _, .emptyObject h => .emptyObject h
  | _, _, .object h1 h2 h3 => .object h1 h2.members h3
  | _, _, .emptyArray h => .emptyArray h
  | _, _, .array h1 h2 h3 => .array h1 h2.values h3

theorem MemberOf.member {F : Flavor} : ∀ {t : List Rune} {m : List Rune × JValue}, MemberOf F t m → Member F t
  | _, _, .mk h1 h2 h3 h4 => .mk h1 h2 h3 h4.value

theorem MembersOf.members {F : Flavor} : ∀ {t : List Rune} {ms : List (List Rune × JValue)}, MembersOf F t ms → Members F t
  | _, _, .one h => .one h.member
  | _, _, .more h1 h2 h3 h4 => .more h1.members h2 h3 h4.member

theorem ValuesOf.values {F : Flavor} : ∀ {t : List Rune} {vs : List JValue}, ValuesOf F t vs → Values F t
  | _, _, .one h => .one h.value
  | _, _, .more h1 h2 h3 h4 => .more h1.values h2 h3 h4.value

end

mutual

theorem Value.of {F : Flavor} : ∀ {t : List Rune}, Value F t → ∃ v, ValueOf F t v
  | _, .true => ⟨_, .true⟩
  | _, .false => ⟨_, .false⟩
  | _, .null => ⟨_, .null⟩
  | _, .string h => ⟨_, .string h⟩
  | _, .number h => ⟨_, .number h⟩
  | _, .emptyObject h => ⟨_, .emptyObject h⟩
  | _, .object h1 h2 h3 => let ⟨_, h⟩ := h2.of; ⟨_, .object h1 h h3⟩
  | _, .emptyArray h => ⟨_, .emptyArray h⟩
  | _, .array h1 h2 h3 => let ⟨_, h⟩ := h2.of; ⟨_, .array h1 h h3⟩

theorem Member.of {F : Flavor} : ∀ {t : List Rune}, Member F t → ∃ m, MemberOf F t m
  | _, .mk h1 h2 h3 h4 => let ⟨_, h⟩ := h4.of; ⟨_, .mk h1 h2 h3 h⟩

theorem Members.of {F : Flavor} : ∀ {t : List Rune}, Members F t → ∃ ms, MembersOf F t ms
  | _, .one h => let ⟨_, h⟩ := h.of; ⟨_, .one h⟩
  | _, .more h1 h2 h3 h4 => let ⟨_, g1⟩ := h1.of; let ⟨_, g2⟩ := h4.of; ⟨_, .more g1 h2 h3 g2⟩

theorem Values.of {F : Flavor} : ∀ {t : List Rune}, Values F t → ∃ vs, ValuesOf F t vs
  | _, .one h => let ⟨_, h⟩ := h.of; ⟨_, .one h⟩
  | _, .more h1 h2 h3 h4 => let ⟨_, g1⟩ := h1.of; let ⟨_, g2⟩ := h4.of; ⟨_, .more g1 h2 h3 g2⟩

end

/-- The texts are those with a value. -/
theorem text_iff {F : Flavor} {t : List Rune} : Text F t ↔ ∃ v, TextOf F t v := by
  constructor
  · rintro ⟨w, u, w', h1, h2, h3, h4⟩
    obtain ⟨v, h2⟩ := h2.of
    exact ⟨v, w, u, w', h1, h2, h3, h4⟩
  · rintro ⟨v, w, u, w', h1, h2, h3, h4⟩
    exact ⟨w, u, w', h1, h2.value, h3, h4⟩

end Treerack.Spec.JsonText
