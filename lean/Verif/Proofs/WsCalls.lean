import Verif.Proofs.Profile
import Verif.Spec.Conditions

/-
The names of the definitions generated for the whitespace do not collide, when the references are
symbols.
-/

namespace Treerack
open Spec Whitespace

/-! ### Names -/

theorem valid_noColon {n : Name} (h : isValidSymbol n = true) : NoColon n := by
  intro hc
  unfold isValidSymbol at h
  rw [List.all_eq_true] at h
  have := h colon hc
  revert this; decide

theorem split_colon {a b x y : Name} (ha : NoColon a) (hb : NoColon b) (h : a ++ colon :: x = b ++ colon :: y) :
    a = b ∧ x = y := by
  induction a generalizing b with
  | nil =>
    cases b with
    | nil => simpa using h
    | cons c b =>
      simp only [List.nil_append, List.cons_append, List.cons.injEq] at h
      exact absurd h.1 (fun e => hb (by simp [e]))
  | cons c a ih =>
    cases b with
    | nil =>
      simp only [List.nil_append, List.cons_append, List.cons.injEq] at h
      exact absurd h.1 (fun e => ha (by simp [e]))
    | cons c' b =>
      simp only [List.cons_append, List.cons.injEq] at h
      obtain ⟨rfl, h⟩ := h
      obtain ⟨rfl, rfl⟩ := ih (fun hc => ha (by simp [hc])) (fun hc => hb (by simp [hc])) h
      exact ⟨rfl, rfl⟩

theorem itoa_digit {i : Nat} {r : Rune} (h : r ∈ itoa i) : 48 ≤ r ∧ r ≤ 57 := by
  unfold itoa at h
  obtain ⟨c, hc, rfl⟩ := List.mem_map.1 h
  have := Nat.isDigit_of_mem_toDigits (by omega) (by omega) hc
  simp only [Char.isDigit, Bool.and_eq_true, decide_eq_true_eq] at this
  obtain ⟨h1, h2⟩ := this
  have h3 : (48 : Nat) ≤ c.toNat := h1
  have h4 : c.toNat ≤ (57 : Nat) := h2
  exact ⟨h3, h4⟩

theorem itoa_noColon (i : Nat) : NoColon (itoa i) := by
  intro h
  have := (itoa_digit h).2
  simp [colon] at this

theorem itoa_inj {i j : Nat} (h : itoa i = itoa j) : i = j := by
  unfold itoa at h
  have h' : Nat.toDigits 10 i = Nat.toDigits 10 j := by
    have hinj : Function.Injective Char.toNat := fun a b h => Char.toNat_inj.1 h
    exact List.map_inj_right (fun _ _ h => hinj h) |>.1 h
  have := congrArg (Nat.ofDigitChars 10 · 0) h'
  simpa [Nat.ofDigitChars_ten_toDigits] using this

theorem parts_ne (n : Name) : parts n ≠ [] := by
  cases n with
  | nil => simp [parts]
  | cons c n => unfold parts; split <;> simp

theorem parts_append (a b : Name) : parts (a ++ colon :: b) = parts a ++ parts b := by
  induction a with
  | nil => simp [parts]
  | cons c a ih =>
    simp only [List.cons_append, parts]
    split
    · rw [ih]; rfl
    · rw [ih]
      cases h : parts a with
      | nil => exact absurd h (parts_ne a)
      | cons x xs => simp

theorem parts_noColon {n : Name} (h : NoColon n) : parts n = [n] := by
  induction n with
  | nil => rfl
  | cons c n ih =>
    rw [parts, if_neg (fun hc => h (by simp [hc])), ih (fun hc => h (by simp [hc]))]
    rfl

theorem parts_inj {a b : Name} (h : parts a = parts b) : a = b := by
  induction a generalizing b with
  | nil =>
    cases b with
    | nil => rfl
    | cons c b =>
      simp only [parts] at h
      split at h
      · simp only [List.cons.injEq] at h
        exact absurd h.2.symm (parts_ne b)
      · simp at h
  | cons c a ih =>
    cases b with
    | nil =>
      simp only [parts] at h
      split at h
      · simp only [List.cons.injEq] at h
        exact absurd h.2 (parts_ne a)
      · simp at h
    | cons c' b =>
      simp only [parts] at h
      by_cases h1 : c = colon
      · by_cases h2 : c' = colon
        · rw [if_pos h1, if_pos h2] at h
          simp only [List.cons.injEq, true_and] at h
          rw [h1, h2, ih h]
        · rw [if_pos h1, if_neg h2] at h
          simp at h
      · by_cases h2 : c' = colon
        · rw [if_neg h1, if_pos h2] at h
          simp at h
        · rw [if_neg h1, if_neg h2] at h
          simp only [List.cons.injEq] at h
          obtain ⟨⟨rfl, h3⟩, h4⟩ := h
          rw [ih (b := b) ?_]
          have e : ∀ l : List Name, l ≠ [] → l = l.headD [] :: l.tail := by
            intro l hl; cases l with
            | nil => exact absurd rfl hl
            | cons => rfl
          rw [e _ (parts_ne a), e _ (parts_ne b), h3, h4]

theorem itoa_number (i : Nat) : isNumber (itoa i) = true := by
  unfold isNumber
  rw [Bool.and_eq_true, List.all_eq_true]
  refine ⟨?_, fun r hr => by have := itoa_digit hr; simp [this.1, this.2]⟩
  have : itoa i ≠ [] := by
    unfold itoa
    intro h
    have := List.map_eq_nil_iff.1 h
    exact Nat.toDigits_ne_nil this
  simpa using this

theorem numbered_noColon {n : Name} (h : NoColon n) : Numbered n := by
  unfold Numbered
  rw [parts_noColon h]
  simp

theorem numbered_child {n : Name} (h : Numbered n) (i : Nat) : Numbered (childName n i) := by
  unfold Numbered childName
  rw [parts_append, parts_noColon (itoa_noColon i)]
  intro x hx
  rw [List.tail_append_of_ne_nil (parts_ne n)] at hx
  rcases List.mem_append.1 hx with hx | hx
  · exact h x hx
  · simp only [List.mem_singleton] at hx
    subst hx; exact itoa_number i

/-- Names that can be put together without becoming ambiguous. -/
structure NameScheme (P : Name → Prop) : Prop where
  numbered : ∀ n, P n → Numbered n
  split : ∀ a a' b b', P a → P a' → P b → P b' → parts a ++ parts b = parts a' ++ parts b' → a = a' ∧ b = b'

theorem noColon_scheme : NameScheme NoColon where
  numbered := fun _ => numbered_noColon
  split := by
    intro a a' b b' ha ha' hb hb' h
    rw [parts_noColon ha, parts_noColon ha', parts_noColon hb, parts_noColon hb'] at h
    simpa using h

theorem member_scheme : NameScheme MemberName where
  numbered := fun _ h => h.2
  split := by
    have key : ∀ (xs xs' ys ys' : List Name), (∀ x ∈ xs, isNumber x = true) → (∀ x ∈ xs', isNumber x = true) →
        ys ≠ [] → ys' ≠ [] → isNumber (ys.headD []) = false → isNumber (ys'.headD []) = false →
        xs ++ ys = xs' ++ ys' → xs = xs' ∧ ys = ys' := by
      intro xs
      induction xs with
      | nil =>
        intro xs' ys ys' _ h2 h3 _ h5 _ h
        cases xs' with
        | nil => exact ⟨rfl, h⟩
        | cons x xs' =>
          simp only [List.nil_append, List.cons_append] at h
          rw [h] at h5
          rw [List.headD_cons, h2 x (by simp)] at h5
          cases h5
      | cons x xs ih =>
        intro xs' ys ys' h1 h2 h3 h4 h5 h6 h
        cases xs' with
        | nil =>
          simp only [List.nil_append, List.cons_append] at h
          rw [← h] at h6
          rw [List.headD_cons, h1 x (by simp)] at h6
          cases h6
        | cons x' xs' =>
          simp only [List.cons_append, List.cons.injEq] at h
          obtain ⟨rfl, h⟩ := h
          obtain ⟨rfl, rfl⟩ := ih xs' ys ys' (fun x hx => h1 x (by simp [hx])) (fun x hx => h2 x (by simp [hx])) h3 h4 h5 h6 h
          exact ⟨rfl, rfl⟩
    intro a a' b b' ha ha' hb hb' h
    have e : ∀ n, parts n = (parts n).headD [] :: (parts n).tail := by
      intro n
      cases hn : parts n with
      | nil => exact absurd hn (parts_ne n)
      | cons => rfl
    rw [e a, e a'] at h
    simp only [List.cons_append, List.cons.injEq] at h
    obtain ⟨h1, h2⟩ := key _ _ _ _ ha.2 ha'.2 (parts_ne b) (parts_ne b') hb.1 hb'.1 h.2
    refine ⟨parts_inj ?_, parts_inj h2⟩
    rw [e a, e a', h.1, h1]

theorem patchName4 (a b c d : Name) :
    patchName [a, b, c, d] = a ++ colon :: (b ++ colon :: (c ++ colon :: d)) := by
  simp [patchName, List.intercalate, List.intersperse]

theorem patchName2 (a b : Name) : patchName [a, b] = a ++ colon :: b := by
  simp [patchName, List.intercalate, List.intersperse]

theorem noColon_ne {a b c : Name} (h : NoColon a) : a ≠ b ++ colon :: c := by
  rintro rfl; exact h (by simp)

/-- A generated name. -/
def genName (opt : Bool) (item seqName : Name) (i : Nat) : Name :=
  if opt then optName item seqName i else restName item seqName i

theorem genName_eq (opt : Bool) (a b : Name) (i : Nat) :
    genName opt a b i = a ++ colon :: (b ++ colon :: ((if opt then runes "wsopt" else runes "wsrest") ++
      colon :: itoa i)) := by
  unfold genName optName restName
  split <;> rw [patchName4]

theorem parts_genName (o : Bool) (a b : Name) (i : Nat) :
    parts (genName o a b i) = parts a ++ (parts b ++ [if o then runes "wsopt" else runes "wsrest", itoa i]) := by
  have ht : ∀ o : Bool, NoColon (if o then runes "wsopt" else runes "wsrest") := by
    intro o; unfold NoColon; cases o <;> decide
  rw [genName_eq, parts_append, parts_append, parts_append, parts_noColon (ht o), parts_noColon (itoa_noColon i)]
  rfl

theorem genName_inj {P : Name → Prop} (hP : NameScheme P) {o o' : Bool} {a a' b b' : Name} {i i' : Nat} (ha : P a) (ha' : P a')
    (hb : P b) (hb' : P b') (h : genName o a b i = genName o' a' b' i') :
    o = o' ∧ a = a' ∧ b = b' ∧ i = i' := by
  have h := congrArg parts h
  rw [parts_genName, parts_genName, ← List.append_assoc, ← List.append_assoc] at h
  obtain ⟨h1, h2⟩ := List.append_inj' h rfl
  obtain ⟨rfl, rfl⟩ := hP.split _ _ _ _ ha ha' hb hb' h1
  simp only [List.cons.injEq, and_true] at h2
  refine ⟨?_, rfl, rfl, itoa_inj h2.2⟩
  have h3 := h2.1
  revert h3
  cases o <;> cases o' <;> decide

theorem orig_ne_gen {n : Name} (hn : Numbered n) {o : Bool} {a b : Name} {i : Nat} : n ≠ genName o a b i := by
  intro h
  have hm : (if o then runes "wsopt" else runes "wsrest") ∈ (parts n).tail := by
    rw [h, parts_genName, List.tail_append_of_ne_nil (parts_ne a)]
    simp
  have := hn _ hm
  revert this
  cases o <;> decide

theorem orig_ne_special {n m tag : Name} (hn : Numbered n) (hc : NoColon tag)
    (ht : isNumber tag = false) : n ≠ m ++ colon :: tag := by
  intro h
  have hm : tag ∈ (parts n).tail := by
    rw [h, parts_append, List.tail_append_of_ne_nil (parts_ne m), parts_noColon hc]
    simp
  rw [hn _ hm] at ht
  cases ht

theorem gen_ne_special {o : Bool} {a b m tag : Name} {i : Nat} (hc : NoColon tag)
    (ht : isNumber tag = false) : genName o a b i ≠ m ++ colon :: tag := by
  intro h
  have h := congrArg (fun n => (parts n).getLast?) h
  simp only [parts_genName, parts_append, parts_noColon hc, List.getLast?_append] at h
  simp only [List.getLast?_cons_cons, List.getLast?_singleton, Option.some_or, Option.some.injEq] at h
  rw [← h, itoa_number] at ht
  cases ht

/-- The names of the generated definitions. -/
theorem wsGen_names {sn : Name} : ∀ {items : List SeqItem} {i : Nat} {e : Def}, e ∈ (applyToItems sn i items).1 →
    ∃ o k it, it ∈ items ∧ it.max ≠ 1 ∧ i ≤ k ∧ e.name = genName o it.name sn k
  | [], _, e, h => by simp [applyToItems] at h
  | x :: xs, i, e, h => by
    rw [applyToItems_cons] at h
    rcases List.mem_append.1 h with h | h
    · by_cases h1 : x.max = 1
      · rw [applyToItem_once h1] at h; simp at h
      · by_cases h2 : 0 < x.min
        · rw [applyToItem_many h1 h2] at h
          simp only [List.mem_singleton] at h
          subst h
          exact ⟨false, i, x, by simp, h1, Nat.le_refl _, rfl⟩
        · rw [applyToItem_opt h1 (by omega)] at h
          simp only [List.mem_cons, List.not_mem_nil, or_false] at h
          rcases h with rfl | rfl
          · exact ⟨false, i, x, by simp, h1, Nat.le_refl _, rfl⟩
          · exact ⟨true, i, x, by simp, h1, Nat.le_refl _, rfl⟩
    · obtain ⟨o, k, it, h1, h2, h3, h4⟩ := wsGen_names h
      exact ⟨o, k, it, by simp [h1], h2, by omega, h4⟩

theorem wsGen_nodup {P : Name → Prop} (hP : NameScheme P) {sn : Name} (hsn : P sn) : ∀ {items : List SeqItem} {i : Nat},
    (∀ it ∈ items, it.max ≠ 1 → P it.name) → ((applyToItems sn i items).1.map Def.name).Nodup
  | [], _, _ => by simp [applyToItems]
  | x :: xs, i, hc => by
    rw [applyToItems_cons]
    simp only [List.map_append]
    rw [List.nodup_append]
    refine ⟨?_, wsGen_nodup hP hsn fun it hit => hc it (by simp [hit]), ?_⟩
    · by_cases h1 : x.max = 1
      · rw [applyToItem_once h1]; simp
      · by_cases h2 : 0 < x.min
        · rw [applyToItem_many h1 h2]; simp
        · rw [applyToItem_opt h1 (by omega)]
          simp only [List.map_cons, List.map_nil, List.nodup_cons, List.mem_singleton, List.not_mem_nil,
            not_false_eq_true, List.nodup_nil, and_true]
          intro h
          have hx := hc x (by simp) h1
          have := (genName_inj hP (o := false) (o' := true) hx hx hsn hsn (i := i) (i' := i) h).1
          cases this
    · intro a ha b hb hab
      subst hab
      obtain ⟨e1, h1, rfl⟩ := List.mem_map.1 ha
      obtain ⟨e2, h2, h3⟩ := List.mem_map.1 hb
      have h1' : e1 ∈ (applyToItems sn i [x]).1 := by
        rw [applyToItems_cons]; simp only [applyToItems, List.append_nil]; exact h1
      obtain ⟨o2, k2, it2, g1, g2, g3, g4⟩ := wsGen_names h2
      have hk : ∃ o, e1.name = genName o x.name sn i ∧ x.max ≠ 1 := by
        by_cases hm1 : x.max = 1
        · rw [applyToItem_once hm1] at h1; simp at h1
        · by_cases hm2 : 0 < x.min
          · rw [applyToItem_many hm1 hm2] at h1
            simp only [List.mem_singleton] at h1
            subst h1; exact ⟨false, rfl, hm1⟩
          · rw [applyToItem_opt hm1 (by omega)] at h1
            simp only [List.mem_cons, List.not_mem_nil, or_false] at h1
            rcases h1 with rfl | rfl
            · exact ⟨false, rfl, hm1⟩
            · exact ⟨true, rfl, hm1⟩
      obtain ⟨o1, g5, g6⟩ := hk
      rw [h3, g5] at g4
      have := (genName_inj hP (hc x (by simp) g6) (hc it2 (by simp [g1]) g2) hsn hsn g4).2.2.2
      omega

/-! ### Definitions made by calls -/

theorem PlainNames.scheme {cs : List Call} (h : PlainNames cs) :
    ∃ P, NameScheme P ∧ ∀ c ∈ cs, P c.name ∧ ∀ n ∈ c.refs, P n := by
  rcases h with h | h
  · exact ⟨_, noColon_scheme, h⟩
  · exact ⟨_, member_scheme, h⟩

section

variable {cs : List Call} {s : Syntax}

theorem raw_cases {c : Call} {r : Def} (hr : r ∈ c.raw) :
    (∃ i neg chars ranges, r = newChar (childName c.name i) neg chars ranges) ∨
    (r.name = c.name ∧ r.commitType.whitespace = c.commit.whitespace ∧
      r.commitType.keyword = c.commit.keyword ∧
      (r.commitType.noWhitespace || r.commitType.whitespace) = c.isTight ∧
      (r.kind.isChar = false) ∧
      ((∃ os, c.refs = os ∧ r.kind = .choice os [] ∧ ∃ n ct, c = .choice n ct os) ∨
       (∃ items, r.kind = .seq items items [] [] false ∧
        ((∃ n ct, c = .sequence n ct items) ∨
          ∀ it ∈ items, it.min = 0 ∧ it.max = 0 ∧ ∃ i e, it.name = childName c.name i ∧ e ∈ c.raw ∧ e.name = it.name)))) := by
  cases c with
  | anyChar n ct =>
    simp only [Call.raw, List.mem_cons, List.not_mem_nil, or_false] at hr
    rcases hr with rfl | rfl
    · exact Or.inl ⟨0, _, _, _, rfl⟩
    · refine Or.inr ⟨rfl, rfl, rfl, ?_, rfl, Or.inr ⟨_, rfl, Or.inr ?_⟩⟩
      · simp [newSequence, Def.commitType, Call.flags, Call.isTight]
      · intro it hit
        simp only [List.mem_singleton] at hit
        subst hit
        exact ⟨rfl, rfl, 0, _, rfl, List.mem_cons_self .., rfl⟩
  | class_ n ct neg cs rs =>
    simp only [Call.raw, List.mem_cons, List.not_mem_nil, or_false] at hr
    rcases hr with rfl | rfl
    · exact Or.inl ⟨0, _, _, _, rfl⟩
    · refine Or.inr ⟨rfl, rfl, rfl, ?_, rfl, Or.inr ⟨_, rfl, Or.inr ?_⟩⟩
      · simp [newSequence, Def.commitType, Call.flags, Call.isTight]
      · intro it hit
        simp only [List.mem_singleton] at hit
        subst hit
        exact ⟨rfl, rfl, 0, _, rfl, List.mem_cons_self .., rfl⟩
  | charSequence n ct cs =>
    simp only [Call.raw, List.mem_append, List.mem_singleton] at hr
    rcases hr with hr | rfl
    · obtain ⟨x, -, rfl⟩ := List.mem_map.1 hr
      exact Or.inl ⟨x.2, _, _, _, rfl⟩
    · refine Or.inr ⟨rfl, rfl, rfl, ?_, rfl, Or.inr ⟨_, rfl, Or.inr ?_⟩⟩
      · simp [newSequence, Def.commitType, Call.flags, Call.isTight]
      · intro it hit
        obtain ⟨i, hi, rfl⟩ := List.mem_map.1 hit
        refine ⟨rfl, rfl, i, newChar (childName n i) false [cs[i]'(List.mem_range.1 hi)] [], rfl, ?_, rfl⟩
        apply List.mem_append_left
        refine List.mem_map.2 ⟨(cs[i]'(List.mem_range.1 hi), i), ?_, rfl⟩
        rw [List.mk_mem_zipIdx_iff_getElem?]
        exact List.getElem?_eq_getElem _
  | sequence n ct items =>
    simp only [Call.raw, List.mem_singleton] at hr
    subst hr
    refine Or.inr ⟨rfl, rfl, rfl, ?_, rfl, Or.inr ⟨_, rfl, Or.inl ⟨n, ct, rfl⟩⟩⟩
    simp [newSequence, Def.commitType, Call.flags, Call.isTight]
  | choice n ct os =>
    simp only [Call.raw, List.mem_singleton] at hr
    subst hr
    refine Or.inr ⟨rfl, rfl, rfl, ?_, rfl, Or.inl ⟨_, rfl, rfl, n, ct, rfl⟩⟩
    simp [newChoice, Def.commitType, Call.flags, Call.isTight]

/-- The same for any registered definitions. -/
theorem block_names {P : Name → Prop}
    (hgen : ∀ p d, s.Has p d → d.replaced = true → P d.name ∧ ∀ it ∈ d.items, it.max ≠ 1 → P it.name) {p : Ptr} {d : Def} (hp : s.Has p d) {n : Name}
    (hn : n ∈ (d.wsGen ++ [d.wsRepl]).map Def.name) : n = d.name ∨ (d.replaced = true ∧ P d.name ∧
      ∃ o k it, it ∈ d.items ∧ P it.name ∧ n = genName o it.name d.name k) := by
  obtain ⟨e, he, rfl⟩ := List.mem_map.1 hn
  rcases List.mem_append.1 he with he | he
  · unfold Def.wsGen at he
    split at he
    · rename_i hr
      obtain ⟨g1, g2⟩ := hgen _ _ hp hr
      obtain ⟨o, k, it, h1, h2, -, h3⟩ := wsGen_names he
      exact Or.inr ⟨hr, g1, o, k, it, h1, g2 it h1 h2, h3⟩
    · simp at he
  · simp only [List.mem_singleton] at he
    subst he
    exact Or.inl (wsRepl_name d)

/-- No two definitions have the same name, after the whitespace was applied. -/
theorem SInv.wsNames_nodup (hs : SInv s) {P : Name → Prop} (hP : NameScheme P) (horig : ∀ p d, s.Has p d → Numbered d.name)
    (hgen : ∀ p d, s.Has p d → d.replaced = true → P d.name ∧ ∀ it ∈ d.items, it.max ≠ 1 → P it.name) :
    s.wsNames.Nodup := by
  have hblock : ∀ p ∈ s.registry.definitions, ∃ d, s.Has p d ∧ wsBlock s.preHeap p = d.wsGen ++ [d.wsRepl] := by
    intro p hp
    obtain ⟨d, h1, h2⟩ := hs.has hp
    exact ⟨_, h2, by unfold wsBlock; rw [h2.2]⟩
  have hnonws : ∀ p ∈ nonWsPart s.preHeap s.registry.definitions, p ∈ s.registry.definitions :=
    fun p hp => (List.mem_filter.1 hp).1
  have hwsp : ∀ p ∈ wsPart s.preHeap s.registry.definitions, p ∈ s.registry.definitions :=
    fun p hp => (List.mem_filter.1 hp).1
  have hdisj : ∀ p ∈ nonWsPart s.preHeap s.registry.definitions,
      p ∉ wsPart s.preHeap s.registry.definitions := by
    intro p hp hq
    have h1 := (List.mem_filter.1 hp).2
    have h2 := (List.mem_filter.1 hq).2
    simp only [Bool.not_eq_true'] at h1
    rw [h1] at h2; simp at h2
  have hcross : ∀ p d q e n, s.Has p d → s.Has q e → p ≠ q → n ∈ (d.wsGen ++ [d.wsRepl]).map Def.name →
      n ∈ (e.wsGen ++ [e.wsRepl]).map Def.name → False := by
    intro p d q e n hp hq hpq h1 h2
    have hne : d.name ≠ e.name := fun hh => hpq (hs.has_inj hp hq hh).1
    rcases block_names hgen hp h1 with rfl | ⟨-, c1, o1, k1, i1, -, n1, rfl⟩
    · rcases block_names hgen hq h2 with h3 | ⟨-, -, o2, k2, i2, -, n2, h3⟩
      · exact hne h3
      · exact orig_ne_gen (horig _ _ hp) h3
    · rcases block_names hgen hq h2 with h3 | ⟨-, c2, o2, k2, i2, -, n2, h3⟩
      · exact orig_ne_gen (horig _ _ hq) h3.symm
      · exact hne (genName_inj hP n1 n2 c1 c2 h3).2.2.1
  unfold Syntax.wsNames
  rw [List.nodup_append, List.nodup_append]
  refine ⟨⟨?_, ?_, ?_⟩, ?_, ?_⟩
  · rw [List.map_flatMap]
    unfold List.Nodup
    rw [List.pairwise_flatMap]
    refine ⟨?_, ?_⟩
    · intro p hp
      obtain ⟨d, hd, hb⟩ := hblock p (hnonws p hp)
      rw [hb, List.map_append]
      refine List.nodup_append.2 ⟨?_, by simp, ?_⟩
      · unfold Def.wsGen
        split
        · rename_i hr
          obtain ⟨g1, g2⟩ := hgen _ _ hd hr
          exact wsGen_nodup hP g1 g2
        · simp
      · intro a ha b hb hab
        subst hab
        simp only [List.map_cons, List.map_nil, List.mem_singleton, wsRepl_name] at hb
        subst hb
        obtain ⟨e, he1, he2⟩ := List.mem_map.1 ha
        unfold Def.wsGen at he1
        split at he1
        · rename_i hr
          obtain ⟨g1, g2⟩ := hgen _ _ hd hr
          obtain ⟨o, k, it, h1, h2, -, h3⟩ := wsGen_names he1
          rw [he2] at h3
          exact orig_ne_gen (horig _ _ hd) h3
        · simp at he1
    · refine List.Pairwise.imp_of_mem ?_ (hs.nodup.filter _)
      intro p q hp hq hpq x hx y hy hxy
      subst hxy
      obtain ⟨d, hd, hb⟩ := hblock p (hnonws p hp)
      obtain ⟨e, he, hb'⟩ := hblock q (hnonws q hq)
      rw [hb] at hx
      rw [hb'] at hy
      exact hcross p d q e _ hd he hpq hx hy
  · unfold List.Nodup
    rw [List.pairwise_filterMap]
    refine List.Pairwise.imp_of_mem ?_ (hs.nodup.filter _)
    intro p q hp hq hpq a ha b hb hab
    subst hab
    obtain ⟨d, h1, h2⟩ := hs.has (hwsp p hp)
    obtain ⟨e, h3, h4⟩ := hs.has (hwsp q hq)
    rw [h2.2] at ha
    rw [h4.2] at hb
    simp only [Option.map_some, Option.some.injEq] at ha hb
    exact hpq (hs.has_inj h2 h4 (ha.trans hb.symm)).1
  · intro a ha b hb hab
    subst hab
    rw [List.map_flatMap] at ha
    obtain ⟨p, hp, ha⟩ := List.mem_flatMap.1 ha
    obtain ⟨q, hq, hb⟩ := List.mem_filterMap.1 hb
    obtain ⟨d, hd, hbk⟩ := hblock p (hnonws p hp)
    obtain ⟨e, h3, h4⟩ := hs.has (hwsp q hq)
    rw [hbk] at ha
    rw [h4.2] at hb
    simp only [Option.map_some, Option.some.injEq] at hb
    refine hcross p d q _ a hd h4 ?_ ha ?_
    · rintro rfl; exact hdisj p hp hq
    · rw [List.map_append, List.mem_append]
      right
      simp [wsRepl_name, hb]
  · simp only [List.nodup_cons, List.mem_singleton, List.not_mem_nil, not_false_eq_true, List.nodup_nil, and_true]
    rw [patchName2]
    intro hh
    have hh := congrArg (fun n => (parts n).getLast?) hh
    have e1 : NoColon (runes "wsroot") := by unfold NoColon; decide
    have e2 : (parts whitespaceName).getLast? = some (runes "ws") := by decide
    simp only [parts_append, parts_noColon e1, List.getLast?_append, List.getLast?_singleton, Option.some_or, e2,
      Option.some.injEq] at hh
    revert hh; decide
  · -- the special names
    have hspecial : ∀ b ∈ [whitespaceName, patchName [s.rootName, runes "wsroot"]], ∃ m tag, b = m ++ colon :: tag ∧
        NoColon tag ∧ isNumber tag = false := by
      intro b hb
      simp only [List.mem_cons, List.not_mem_nil, or_false] at hb
      rcases hb with rfl | rfl
      · exact ⟨[], runes "ws", by decide, by unfold NoColon; decide, by decide⟩
      · exact ⟨_, runes "wsroot", patchName2 .., by unfold NoColon; decide, by decide⟩
    intro a ha b hb hab
    subst hab
    obtain ⟨m, tag, rfl, s2, s3⟩ := hspecial a hb
    rcases List.mem_append.1 ha with ha | ha
    · rw [List.map_flatMap] at ha
      obtain ⟨p, hp, ha⟩ := List.mem_flatMap.1 ha
      obtain ⟨d, hd, hbk⟩ := hblock p (hnonws p hp)
      rw [hbk] at ha
      rcases block_names hgen hd ha with h3 | ⟨-, c1, o1, k1, i1, -, n1, h3⟩
      · exact orig_ne_special (horig _ _ hd) s2 s3 h3.symm
      · exact gen_ne_special s2 s3 h3.symm
    · obtain ⟨q, hq, hb⟩ := List.mem_filterMap.1 ha
      obtain ⟨e, h3, h4⟩ := hs.has (hwsp q hq)
      rw [h4.2] at hb
      simp only [Option.map_some, Option.some.injEq] at hb
      exact orig_ne_special (horig _ _ h4) s2 s3 hb

variable (h : Made cs s)
include h

theorem has_orig {P : Name → Prop} (hP : NameScheme P) (hpl : ∀ c ∈ cs, P c.name ∧ ∀ n ∈ c.refs, P n)
    {p : Ptr} {d : Def} (hp : s.Has p d) : Numbered d.name := by
  obtain ⟨e, h1, rfl, c, hc, hr⟩ := hp.raw h
  have hv := hP.numbered _ (hpl c hc).1
  rw [initRanges_name, ← plain_name]
  rcases raw_cases hr with ⟨i, neg, chars, ranges, h2⟩ | ⟨h2, -⟩
  · rw [h2]; exact numbered_child hv i
  · rw [h2]; exact hv

/-- Generated definitions have names made of plain names. -/
theorem has_gen {P : Name → Prop} (hpl : ∀ c ∈ cs, P c.name ∧ ∀ n ∈ c.refs, P n) {p : Ptr} {d : Def} (hp : s.Has p d)
    (hr : d.replaced = true) : P d.name ∧ ∀ it ∈ d.items, it.max ≠ 1 → P it.name := by
  obtain ⟨e, h1, rfl, c, hc, hraw⟩ := hp.raw h
  have hv := (hpl c hc).1
  rcases raw_cases hraw with ⟨i, neg, chars, ranges, h2⟩ | ⟨h2, -, -, -, -, h3⟩
  · have hk : e.kind = .char neg chars ranges := by rw [← plain_kind, h2]; rfl
    simp [Def.replaced, Def.initRanges, hk] at hr
  · refine ⟨by rw [initRanges_name, ← plain_name, h2]; exact hv, ?_⟩
    rw [plain_kind] at h3
    rcases h3 with ⟨os, -, hk, -⟩ | ⟨items, hk, h3⟩
    · simp [Def.replaced, Def.initRanges, hk] at hr
    · intro it hit hm
      simp only [Def.initRanges, hk, Def.items, List.mem_map] at hit
      obtain ⟨it0, hit0, rfl⟩ := hit
      rw [normalizeItemRange_name]
      rcases h3 with ⟨n, ct, rfl⟩ | h3
      · exact (hpl _ hc).2 _ (List.mem_map.2 ⟨it0, hit0, rfl⟩)
      · obtain ⟨g1, g2, -⟩ := h3 it0 hit0
        rw [normalizeItemRange_eq, if_pos ⟨g1, g2⟩] at hm
        simp at hm

theorem has_block {P : Name → Prop} (hpl : ∀ c ∈ cs, P c.name ∧ ∀ n ∈ c.refs, P n) {p : Ptr} {d : Def} (hp : s.Has p d) {n : Name}
    (hn : n ∈ (d.wsGen ++ [d.wsRepl]).map Def.name) : n = d.name ∨ (d.replaced = true ∧ P d.name ∧
      ∃ o k it, it ∈ d.items ∧ P it.name ∧ n = genName o it.name d.name k) :=
  block_names (fun _ _ => has_gen h hpl) hp hn

/-- No two definitions have the same name, after the whitespace was applied. -/
theorem wsNames_nodup (_hne : cs ≠ []) (hpl : PlainNames cs) : s.wsNames.Nodup := by
  obtain ⟨P, hP, hpl⟩ := hpl.scheme
  exact (made_called h).built.inv.wsNames_nodup hP (fun _ _ => has_orig h hP hpl) (fun _ _ => has_gen h hpl)

/-- The references to generated definitions. -/
theorem refsIn (hpl : PlainNames cs) {r0 : Ptr} {G : Grammar Name} (WG : WsGrammar s r0 G) : RefsIn s G := by
  obtain ⟨P, hP, hpl⟩ := hpl.scheme
  have C := made_called h
  have hs := C.built.inv
  intro p d hp n hn hG
  obtain ⟨e, h1, rfl, c, hc, hraw⟩ := hp.raw h
  -- symbols
  have hsym : P n → ∃ q e, s.Has q e ∧ e.name = n := by
    intro hnc
    obtain ⟨gd, hgd⟩ := Option.isSome_iff_exists.1 hG
    have hm := WG.names n gd hgd
    unfold Syntax.wsNames at hm
    rw [List.mem_append, List.mem_append, List.map_flatMap] at hm
    rcases hm with (hm | hm) | hm
    · obtain ⟨q, hq, ha⟩ := List.mem_flatMap.1 hm
      obtain ⟨e', h3, h4⟩ := hs.has (List.mem_filter.1 hq).1
      unfold wsBlock at ha
      rw [h4.2] at ha
      rcases has_block h hpl h4 ha with h5 | ⟨-, -, o1, k1, i1, -, -, h5⟩
      · exact ⟨q, _, h4, h5.symm⟩
      · exact absurd h5 (orig_ne_gen (hP.numbered _ hnc))
    · obtain ⟨q, hq, hb⟩ := List.mem_filterMap.1 hm
      obtain ⟨e', h3, h4⟩ := hs.has (List.mem_filter.1 hq).1
      rw [h4.2] at hb
      simp only [Option.map_some, Option.some.injEq] at hb
      exact ⟨q, _, h4, hb⟩
    · simp only [List.mem_cons, List.not_mem_nil, or_false] at hm
      rcases hm with rfl | rfl
      · have e : whitespaceName = [] ++ colon :: runes "ws" := by decide
        exact absurd e (orig_ne_special (hP.numbered _ hnc) (by unfold NoColon; decide) (by decide))
      · rw [patchName2] at hnc
        exact absurd rfl (orig_ne_special (hP.numbered _ hnc) (by unfold NoColon; decide) (by decide))
  rcases raw_cases hraw with ⟨i, neg, chars, ranges, h2⟩ | ⟨h2, -, -, -, -, h3⟩
  · have hk : e.kind = .char neg chars ranges := by rw [← plain_kind, h2]; rfl
    simp [Def.gdef, Def.initRanges, hk, Expr.refs] at hn
  · rw [plain_kind] at h3
    rcases h3 with ⟨os, -, hk, n', ct, rfl⟩ | ⟨items, hk, h3⟩
    · simp only [Def.gdef, Def.initRanges, hk, Expr.refs] at hn
      exact hsym ((hpl _ hc).2 _ hn)
    · simp only [Def.gdef, Def.initRanges, hk, Expr.refs, List.map_map, List.mem_map, Function.comp_apply,
        normalizeItemRange_name] at hn
      obtain ⟨it0, hit0, rfl⟩ := hn
      rcases h3 with ⟨n', ct, rfl⟩ | h3
      · exact hsym ((hpl _ hc).2 _ (List.mem_map.2 ⟨it0, hit0, rfl⟩))
      · obtain ⟨-, -, i, e', g1, g2, g3⟩ := h3 it0 hit0
        obtain ⟨q, e2, k1, k2, k3⟩ := raw_has h hc g2
        refine ⟨q, _, k2, ?_⟩
        rw [initRanges_name, ← plain_name, k3, g3]

theorem keywordsKept (hkw : TightKeywords cs) : s.KeywordsKept := by
  have C := made_called h
  have hs := C.built.inv
  intro k hk d hd
  obtain ⟨hkm, e, he, hec, hek⟩ := (hs.keywords k).1 hk
  rw [hd] at he
  obtain rfl := Option.some.inj he
  obtain ⟨d', h1, h2⟩ := hs.has hkm
  rw [hd] at h1
  obtain rfl := Option.some.inj h1
  obtain ⟨e, h1, h3, c, hc, hraw⟩ := h2.raw h
  rw [hd] at h1
  obtain rfl := Option.some.inj h1
  rcases raw_cases hraw with ⟨i, neg, chars, ranges, h2⟩ | ⟨-, hw, hkc, ht, -, h3⟩
  · have hk : d.kind = .char neg chars ranges := by rw [← plain_kind, h2]; rfl
    rw [hk] at hec; simp [DKind.isChar] at hec
  · rw [plain_commitType] at hkc ht hw
    simp only at hkc ht hw
    rw [commitType_notChar hec] at hkc ht hw
    rcases hkw c hc (by rw [← hkc]; exact hek) with h4 | ⟨n, ct, os, rfl⟩
    · rw [h4] at ht
      have hnows : d.commit.noWhitespace = true := by
        have hcm := hs.compat k d hkm hd hec
        cases hn : d.commit.noWhitespace
        · rw [hn] at ht
          simp only [Bool.false_or] at ht
          simp [Commit.incompatible, ht, hek] at hcm
        · rfl
      simp [Def.replaced, commitType_notChar hec, hnows]
    · rw [plain_kind] at h3
      rcases h3 with ⟨os', -, hk, -⟩ | ⟨items, hk, h3⟩
      · simp [Def.replaced, hk]
      · rcases h3 with ⟨n', ct', h5⟩ | h3
        · cases h5
        · exfalso
          simp only [Call.raw, List.mem_singleton] at hraw
          have : d.kind = .choice os [] := by rw [← plain_kind, hraw]; rfl
          rw [this] at hk; cases hk

/-- The grammar meant by the registered definitions is the one meant by the calls. -/
theorem calls_wgrammar (hne : cs ≠ []) : s.wgrammar = wgrammarOf cs := by
  have C := made_called h
  have hs := C.built.inv
  have hroot : s.rootName = (rootOf cs).getD [] := by
    cases hr : rootOf cs with
    | none =>
      exfalso
      unfold rootOf at hr
      split at hr
      · cases hr
      · simp only [Option.map_eq_none_iff, List.getLast?_eq_none_iff] at hr
        exact hne hr
    | some n => simp [C.root n hr]
  have hws : s.wgrammar.ws = (cs.filter Call.isWs).map Call.name := by
    have hp := made_profile h
    have h1 : s.wgrammar.ws = (s.profile.filter fun o => o.any fun d => d.commitType.whitespace).filterMap
        (Option.map Def.name) := by
      unfold Syntax.wgrammar Syntax.profile
      simp only
      have : ∀ l : List Ptr, (l.filter fun p => (Syntax.commitOf s.heap p).whitespace).filterMap
            (fun p => (s.heap[p]?).map Def.name) =
          ((l.map fun p => (s.heap[p]?).map Def.plain).filter fun o => o.any fun d => d.commitType.whitespace).filterMap
            (Option.map Def.name) := by
        intro l
        induction l with
        | nil => rfl
        | cons a l ih =>
          simp only [List.filter_cons, List.map_cons]
          cases ha : s.heap[a]? with
          | none => simp [Syntax.commitOf, ha]; exact ih
          | some e =>
            have hc : (Syntax.commitOf s.heap a).whitespace = e.commitType.whitespace := by
              simp [Syntax.commitOf, ha]
            rw [hc]
            simp only [Option.map_some, Option.any_some, plain_commitType]
            cases e.commitType.whitespace
            · simpa using ih
            · simp only [if_true, List.filterMap_cons, ha, Option.map_some, plain_name]
              rw [ih]
      exact this _
    rw [h1, hp]
    clear h1 hp h C hs hroot hne
    induction cs with
    | nil => rfl
    | cons c cs ih =>
      simp only [List.flatMap_cons, List.map_append, List.filter_append, List.filterMap_append, ih,
        List.filter_cons]
      have : (((c.raw.map some).filter fun o => o.any fun d => d.commitType.whitespace).filterMap
          (Option.map Def.name)) = if c.isWs then [c.name] else [] := by
        cases c with
        | anyChar n ct =>
          cases hw : ct.whitespace <;>
          simp [Call.raw, newChar, newSequence, Def.commitType, Call.flags, Call.commit, Call.isWs, hw, Call.name]
        | class_ n ct neg cs rs =>
          cases hw : ct.whitespace <;>
          simp [Call.raw, newChar, newSequence, Def.commitType, Call.flags, Call.commit, Call.isWs, hw, Call.name]
        | charSequence n ct cs =>
          cases hw : ct.whitespace <;>
          simp [Call.raw, newChar, newSequence, Def.commitType, Call.flags, Call.commit, Call.isWs, hw, Call.name,
            List.filter_append, List.filter_map, Function.comp_def]
        | sequence n ct items =>
          cases hw : ct.whitespace <;>
          simp [Call.raw, newSequence, Def.commitType, Call.flags, Call.commit, Call.isWs, hw, Call.name]
        | choice n ct os =>
          cases hw : ct.whitespace <;>
          simp [Call.raw, newChoice, Def.commitType, Call.flags, Call.commit, Call.isWs, hw, Call.name]
      rw [this]
      split <;> simp
  have htight : s.wgrammar.tight = fun n => cs.any fun c => c.name == n && c.isTight := by
    funext n
    rw [Bool.eq_iff_iff, List.any_eq_true]
    constructor
    · intro ht
      have ht' := ht
      simp only [Syntax.wgrammar] at ht'
      cases hl : s.registry.lookup n with
      | none => rw [hl] at ht'; simp at ht'
      | some p =>
        obtain ⟨hp, e, he, hen⟩ := (hs.lookup n p).1 hl
        obtain ⟨e', h1, h2⟩ := hs.has hp
        rw [he] at h1
        obtain rfl := Option.some.inj h1
        have := hs.has_tight h2
        rw [initRanges_name, hen, ht, initRanges_commitType] at this
        obtain ⟨e', h1, -, c, hc, hraw⟩ := h2.raw h
        rw [he] at h1
        obtain rfl := Option.some.inj h1
        refine ⟨c, hc, ?_⟩
        rcases raw_cases hraw with ⟨i, neg, chars, ranges, h2⟩ | ⟨hn, hw, hkc, htt, -, h3⟩
        · have hk : e.kind = .char neg chars ranges := by rw [← plain_kind, h2]; rfl
          rw [commitType_char (by rw [hk]; rfl)] at this
          simp at this
        · rw [plain_name, hen] at hn
          rw [plain_commitType] at htt
          simp only at htt
          rw [← this] at htt
          simp [hn, ← htt]
    · rintro ⟨c, hc, hx⟩
      simp only [Bool.and_eq_true, beq_iff_eq] at hx
      obtain ⟨rfl, ht⟩ := hx
      -- the definition with the name of the call
      obtain ⟨r, hr, hrn, hrt⟩ : ∃ r ∈ c.raw, r.name = c.name ∧
          (r.commitType.noWhitespace || r.commitType.whitespace) = c.isTight := by
        cases c with
        | anyChar n ct => exact ⟨_, by simp only [Call.raw]; exact List.mem_cons_of_mem _ (List.mem_cons_self ..), rfl, by
            simp [newSequence, Def.commitType, Call.flags, Call.isTight]⟩
        | class_ n ct neg cs rs => exact ⟨_, by simp only [Call.raw]; exact List.mem_cons_of_mem _ (List.mem_cons_self ..), rfl, by
            simp [newSequence, Def.commitType, Call.flags, Call.isTight]⟩
        | charSequence n ct cs => exact ⟨_, by simp only [Call.raw]; exact List.mem_append_right _ (List.mem_cons_self ..), rfl, by
            simp [newSequence, Def.commitType, Call.flags, Call.isTight]⟩
        | sequence n ct items => exact ⟨_, by simp only [Call.raw]; exact List.mem_cons_self .., rfl, by
            simp [newSequence, Def.commitType, Call.flags, Call.isTight]⟩
        | choice n ct os => exact ⟨_, by simp only [Call.raw]; exact List.mem_cons_self .., rfl, by
            simp [newChoice, Def.commitType, Call.flags, Call.isTight]⟩
      obtain ⟨p, e, k1, k2, k3⟩ := raw_has h hc hr
      have := hs.has_tight k2
      rw [initRanges_name, initRanges_commitType, ← plain_name, k3, hrn] at this
      rw [this]
      rw [← k3, plain_commitType] at hrt
      simp only at hrt
      rw [hrt, ht]
  unfold wgrammarOf
  rw [← htight, ← hws, ← C.grammar, ← hroot]
  rfl

end

end Treerack
