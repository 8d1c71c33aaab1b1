import Verif.Proofs.Prepare

/-
Successful calls of the definition API define the grammar that is meant by them.
-/

namespace Treerack
open Spec

theorem charName_eq (n : Name) (i : Nat) : charName n i = childName n i := by
  unfold charName childName itoa runes
  simp [colon, Nat.toString_eq_repr, Nat.repr, List.append_assoc]

theorem gdef_withRoot (b : Bool) (d : Def) : (d.withRoot b).gdef = d.gdef := by
  cases h : d.kind.isChar
  · have h' : (d.withRoot b).kind.isChar = false := by rw [withRoot_kind]; exact h
    unfold Def.gdef
    rw [commitType_notChar h, commitType_notChar h', withRoot_commit _ _ h, withRoot_kind, withRoot_name]
  · rw [withRoot_char _ _ h]

/-- A registration adds one definition to the grammar. -/
theorem Registered.grammar {s s' : Syntax} {d : Def} (hs : SInv s) (hr : Registered s d s') :
    s'.grammar = fun n => (s.grammar n).or (([(d.name, d.gdef)] : List (Name × GDef Name)).lookup n) := by
  funext n
  have hcons : s'.registry.lookup n = if n == d.name then some s.heap.length else s.registry.lookup n := by
    rw [hr.registry]
    unfold Registry.lookup
    simp only [List.lookup_cons]
    cases n == d.name <;> rfl
  unfold Syntax.grammar
  rw [hcons]
  by_cases hn : n = d.name
  · subst hn
    rw [hr.noDup]
    simp only [BEq.rfl, if_true, Option.bind_some, hr.new, Option.map_some, Option.bind_none,
      Option.none_or, List.lookup_cons]
    congr 1
    show Def.gdef _ = _
    split
    · exact gdef_withRoot true d
    · rfl
  · have : (n == d.name) = false := by simpa using hn
    simp only [this, Bool.false_eq_true, if_false, List.lookup_cons, List.lookup_nil, Option.or_none]
    cases hl : s.registry.lookup n with
    | none => rfl
    | some p =>
      have hp := hs.mem_lt ((hs.lookup n p).1 hl).1
      simp only [Option.bind_some]
      rw [hr.old p hp]
      split
      · cases s.heap[p]? <;> simp [gdef_withRoot]
      · simp

theorem Registered.nameAt_old {s s' : Syntax} {d : Def} (hr : Registered s d s') {p : Ptr}
    (hp : p < s.heap.length) : s'.nameAt p = s.nameAt p := by
  unfold Syntax.nameAt
  rw [hr.old p hp]
  split
  · cases s.heap[p]? <;> simp [withRoot_name]
  · simp

theorem Registered.nameAt_new {s s' : Syntax} {d : Def} (hr : Registered s d s') :
    s'.nameAt s.heap.length = d.name := by
  unfold Syntax.nameAt
  rw [hr.new]
  simp only [Option.map_some, Option.getD_some]
  split
  · exact withRoot_name true d
  · rfl

theorem Registered.hasWhitespace {s s' : Syntax} {d : Def} (hs : SInv s) (hr : Registered s d s') :
    s'.HasWhitespace ↔ s.HasWhitespace ∨ d.commitType.whitespace = true := by
  have hws : ∀ (b : Bool) (e : Def), (e.withRoot b).commitType.whitespace = e.commitType.whitespace := by
    intro b e
    cases h : e.kind.isChar
    · rw [commitType_notChar h, commitType_notChar (by rw [withRoot_kind]; exact h), withRoot_commit _ _ h]
    · rw [withRoot_char _ _ h]
  have hold : ∀ p, p < s.heap.length → (Syntax.commitOf s'.heap p).whitespace =
      (Syntax.commitOf s.heap p).whitespace := by
    intro p hp
    unfold Syntax.commitOf
    rw [hr.old p hp]
    by_cases hc : s.takesRoot d = true ∧ s.root = some p
    · rw [if_pos hc]
      cases s.heap[p]? <;> simp [hws]
    · rw [if_neg hc]; simp
  have hnew : (Syntax.commitOf s'.heap s.heap.length).whitespace = d.commitType.whitespace := by
    unfold Syntax.commitOf
    rw [hr.new]
    simp only
    cases s.takesRoot d
    · rfl
    · exact hws true d
  unfold Syntax.HasWhitespace
  rw [hr.registry]
  simp only [List.mem_append, List.mem_singleton]
  constructor
  · rintro ⟨p, hp | rfl, h⟩
    · rw [hold p (hs.mem_lt hp)] at h; exact Or.inl ⟨p, hp, h⟩
    · rw [hnew] at h; exact Or.inr h
  · rintro (⟨p, hp, h⟩ | h)
    · exact ⟨p, Or.inl hp, by rw [hold p (hs.mem_lt hp)]; exact h⟩
    · exact ⟨_, Or.inr rfl, by rw [hnew]; exact h⟩

theorem lookup_append {α β : Type} [BEq α] (a : α) : ∀ (l m : List (α × β)),
    (l ++ m).lookup a = (l.lookup a).or (m.lookup a)
  | [], m => by simp
  | (x, y) :: l, m => by
    simp only [List.cons_append, List.lookup_cons]
    cases a == x
    · exact lookup_append a l m
    · rfl

/-- The effect of a call. -/
structure Defines (s : Syntax) (name : Name) (ct : Commit) (ds : List (Name × GDef Name)) (s' : Syntax) :
    Prop where
  built : Built s'
  grammar : s'.grammar = fun n => (s.grammar n).or (ds.lookup n)
  rootName : s'.rootName = if ct.root || !s.explicitRoot then name else s.rootName
  rootSome : s'.root ≠ none
  rootNotChar : (s.explicitRoot = true → s.RootNotChar) → s'.RootNotChar
  explicitRoot : s'.explicitRoot = (s.explicitRoot || ct.root)
  single : ct.root = true → s.explicitRoot = false
  whitespace : s'.HasWhitespace ↔ s.HasWhitespace ∨ ct.whitespace = true

theorem charOrNot (d : Def) : d.kind.isChar = true ∨ d.kind.isChar = false := by
  cases d.kind.isChar <;> simp

theorem Registered.defines {s s' : Syntax} {d : Def} (hb : Built s) (hd : RawDef d)
    (hreg : s.register d = (s', none)) (hk : d.kind.isChar = false) :
    Defines s d.name d.commit [(d.name, d.gdef)] s' := by
  have hs := hb.inv
  have hr := register_spec hs.root_lt hreg
  have hct := commitType_notChar hk
  have hs' := hs.register hd hr
  refine ⟨hb.ok hd hreg, hr.grammar hs, ?_, ?_, ?_, ?_, ?_, ?_⟩
  · unfold Syntax.rootName
    rw [hr.root]
    unfold Syntax.takesRoot
    rw [hct]
    split
    · simp [hr.nameAt_new]
    · cases h : s.root with
      | none => rfl
      | some r => simp [hr.nameAt_old (hs.root_lt r h)]
  · intro hn
    have := hs'.rootNone hn
    rw [hr.registry] at this
    simp at this
  · intro hnc r e hroot he
    rw [hr.root] at hroot
    split at hroot
    · cases hroot
      rw [hr.new] at he
      cases he
      show DKind.isChar (Def.kind _) = false
      cases s.takesRoot d
      · exact hk
      · show (d.withRoot true).kind.isChar = false
        rw [withRoot_kind]; exact hk
    · rename_i ht
      have hnc := hnc (by
        unfold Syntax.takesRoot at ht
        simp only [Bool.or_eq_true, Bool.not_eq_true', not_or] at ht
        simpa using ht.2)
      have hl := hs.root_lt r hroot
      rw [hr.old r hl] at he
      obtain ⟨e0, h1, h2⟩ := Option.map_eq_some_iff.1 he
      rw [← h2]
      split
      · rw [withRoot_kind]; exact hnc r e0 hroot h1
      · exact hnc r e0 hroot h1
  · rw [hr.explicitRoot, hct]
  · rw [← hct]; exact hr.single
  · rw [hr.hasWhitespace hs, hct]

/-- The effect of registering characters: they are added to the grammar, and possibly replace an implicit
root. -/
structure AddsChars (s : Syntax) (ds : List (Name × GDef Name)) (s' : Syntax) : Prop where
  built : Built s'
  grammar : s'.grammar = fun n => (s.grammar n).or (ds.lookup n)
  rootKeep : s.explicitRoot = true → s'.rootName = s.rootName ∧ (s.RootNotChar → s'.RootNotChar)
  rootSome : s.root ≠ none → s'.root ≠ none
  explicitRoot : s'.explicitRoot = s.explicitRoot
  whitespace : s'.HasWhitespace ↔ s.HasWhitespace

theorem AddsChars.refl {s : Syntax} (hb : Built s) : AddsChars s [] s :=
  ⟨hb, by funext n; simp, fun _ => ⟨rfl, id⟩, id, rfl, Iff.rfl⟩

theorem AddsChars.trans {a b c : Syntax} {l m : List (Name × GDef Name)} (h1 : AddsChars a l b)
    (h2 : AddsChars b m c) : AddsChars a (l ++ m) c := by
  refine ⟨h2.built, ?_, ?_, fun h => h2.rootSome (h1.rootSome h), h2.explicitRoot.trans h1.explicitRoot,
    h2.whitespace.trans h1.whitespace⟩
  · funext n
    rw [h2.grammar, h1.grammar, lookup_append]
    simp [Option.or_assoc]
  · intro h
    have h' : b.explicitRoot = true := by rw [h1.explicitRoot]; exact h
    exact ⟨(h2.rootKeep h').1.trans (h1.rootKeep h).1, fun hn => (h2.rootKeep h').2 ((h1.rootKeep h).2 hn)⟩

theorem Registered.addsChars {s s' : Syntax} {name : Name} {neg : Bool} {cs : List Rune}
    {rs : List (Rune × Rune)} (hb : Built s)
    (hreg : s.register (newChar name neg cs rs) = (s', none)) :
    AddsChars s [charDef name neg cs rs] s' := by
  have hs := hb.inv
  have hd : RawDef (newChar name neg cs rs) := .char ..
  have hr := register_spec hs.root_lt hreg
  have hs' := hs.register hd hr
  have hct : (newChar name neg cs rs).commitType = { alias := true } := rfl
  refine ⟨hb.ok hd hreg, hr.grammar hs, ?_, ?_, ?_, ?_⟩
  · intro hex
    have ht : s.takesRoot (newChar name neg cs rs) = false := by
      unfold Syntax.takesRoot; rw [hct, hex]; rfl
    have hroot := hr.root
    rw [ht] at hroot
    simp only [Bool.false_eq_true, if_false] at hroot
    refine ⟨?_, ?_⟩
    · unfold Syntax.rootName
      rw [hroot]
      cases h : s.root with
      | none => rfl
      | some r => simp [hr.nameAt_old (hs.root_lt r h)]
    · intro hnc r e hr' he
      rw [hroot] at hr'
      have hl := hs.root_lt r hr'
      rw [hr.old r hl, ht] at he
      simp only [Bool.false_eq_true, false_and, if_false, Option.map_id_fun, id_eq] at he
      exact hnc r e hr' he
  · intro _ hn
    have := hs'.rootNone hn
    rw [hr.registry] at this
    simp at this
  · rw [hr.explicitRoot, hct]; simp
  · rw [hr.hasWhitespace hs, hct]; simp

theorem AddsChars.defines {s s1 s' : Syntax} {name : Name} {ct : Commit} {l m : List (Name × GDef Name)}
    (h1 : AddsChars s l s1) (h2 : Defines s1 name ct m s') :
    Defines s name ct (l ++ m) s' := by
  refine ⟨h2.built, ?_, ?_, h2.rootSome, ?_, ?_, ?_, ?_⟩
  · funext n
    rw [h2.grammar, h1.grammar, lookup_append]
    simp [Option.or_assoc]
  · rw [h2.rootName, h1.explicitRoot]
    cases hex : s.explicitRoot
    · simp
    · rw [(h1.rootKeep hex).1]
  · intro h
    refine h2.rootNotChar fun hex => ?_
    rw [h1.explicitRoot] at hex
    exact (h1.rootKeep hex).2 (h hex)
  · rw [h2.explicitRoot, h1.explicitRoot]
  · rw [← h1.explicitRoot]; exact h2.single
  · rw [h2.whitespace, h1.whitespace]

theorem sequence_defines {s s' : Syntax} {name : Name} {ct : Commit} {items : List SeqItem} (hb : Built s)
    (h : s.sequence_ name ct items = (s', none)) :
    Defines s name ct (Call.sequence name ct items).defs s' :=
  Registered.defines hb (.seq name ct items) h rfl

theorem choice_defines {s s' : Syntax} {name : Name} {ct : Commit} {os : List Name} (hb : Built s)
    (h : s.choice_ name ct os = (s', none)) :
    Defines s name ct (Call.choice name ct os).defs s' :=
  Registered.defines hb (.choice name ct os) h rfl

theorem class_defines {s s' : Syntax} {name : Name} {ct : Commit} {neg : Bool} {cs : List Rune}
    {rs : List (Rune × Rune)} (hb : Built s) (h : s.class_ name ct neg cs rs = (s', none)) :
    Defines s name ct (Call.class_ name ct neg cs rs).defs s' := by
  unfold Syntax.class_ at h
  simp only at h
  split at h
  · simp at h
  · rename_i s1 hreg
    have h1 := Registered.addsChars hb hreg
    have h2 := sequence_defines h1.built h
    have := h1.defines h2
    simp only [Call.defs, charName_eq]
    exact this

theorem charSequenceLoop_spec {name : Name} : ∀ (cs : List Rune) (i : Nat) (refs refs' : List Name)
    (s s' : Syntax), Built s → Syntax.charSequenceLoop name i cs refs s = (s', none, refs') →
    AddsChars s ((cs.zipIdx i).map fun x => charDef (childName name x.2) false [x.1] []) s' ∧
    refs' = refs ++ (List.range' i cs.length).map (childName name)
  | [], i, refs, refs', s, s', hb, h => by
    simp only [Syntax.charSequenceLoop, Prod.mk.injEq] at h
    obtain ⟨rfl, -, rfl⟩ := h
    exact ⟨.refl hb, by simp⟩
  | c :: cs, i, refs, refs', s, s', hb, h => by
    simp only [Syntax.charSequenceLoop] at h
    split at h
    · simp at h
    · rename_i s1 hreg
      have h1 := Registered.addsChars hb hreg
      obtain ⟨h2, h3⟩ := charSequenceLoop_spec cs (i + 1) _ _ _ _ h1.built h
      refine ⟨h1.trans h2, ?_⟩
      rw [h3]
      simp [List.range'_succ]

theorem charSequence_defines {s s' : Syntax} {name : Name} {ct : Commit} {cs : List Rune} (hb : Built s)
    (h : s.charSequence_ name ct cs = (s', none)) :
    Defines s name ct (Call.charSequence name ct cs).defs s' := by
  unfold Syntax.charSequence_ at h
  split at h
  · simp at h
  · rename_i s1 refs hl
    obtain ⟨h1, h2⟩ := charSequenceLoop_spec cs 0 _ _ _ _ hb hl
    have h3 := sequence_defines h1.built h
    obtain ⟨a1, a2, a3, a4, a5, a6, a7, a8⟩ := h1.defines h3
    refine ⟨a1, ?_, a3, a4, a5, a6, a7, a8⟩
    rw [a2]
    funext n
    congr 1
    simp only [Call.defs, charName_eq, h2, List.nil_append, List.map_map]
    congr 1
    congr 1
    simp [Function.comp_def, once, bounds, List.range_eq_range']

/-- A successful call of the API. -/
theorem call_defines {s s' : Syntax} {c : Call} (hb : Built s) (h : s.call c = (s', none)) :
    Defines s c.name c.commit c.defs s' := by
  have conv : ∀ {name : Name} {ct ct' : Commit} {l l' : List (Name × GDef Name)},
      Defines s name ct l s' → ct'.root = ct.root → ct'.whitespace = ct.whitespace → l = l' →
      Defines s name ct' l' s' := by
    rintro name ct ct' l l' ⟨a1, a2, a3, a4, a5, a6, a7, a8⟩ h1 h2 rfl
    refine ⟨a1, a2, ?_, a4, a5, ?_, ?_, ?_⟩
    · rw [h1]; exact a3
    · rw [h1]; exact a6
    · rw [h1]; exact a7
    · rw [h2]; exact a8
  cases c with
  | anyChar n ct =>
    simp only [Syntax.call, Syntax.AnyChar] at h
    split at h
    · simp at h
    · exact conv (class_defines hb h) rfl rfl rfl
  | class_ n ct neg cs rs =>
    simp only [Syntax.call, Syntax.Class] at h
    split at h
    · simp at h
    · exact conv (class_defines hb h) rfl rfl rfl
  | charSequence n ct cs =>
    simp only [Syntax.call, Syntax.CharSequence] at h
    split at h
    · simp at h
    · exact conv (charSequence_defines hb h) rfl rfl rfl
  | sequence n ct items =>
    simp only [Syntax.call, Syntax.Sequence] at h
    split at h
    · simp at h
    · exact conv (sequence_defines hb h) rfl rfl rfl
  | choice n ct os =>
    simp only [Syntax.call, Syntax.Choice] at h
    split at h
    · simp at h
    · exact conv (choice_defines hb h) rfl rfl rfl

/-- A successful definition read from a document. -/
theorem internalCall_defines {s s' : Syntax} {c : Call} (hb : Built s) (h : s.internalCall c = (s', none)) :
    Defines s c.name c.commit c.defs s' := by
  cases c with
  | anyChar n ct => exact class_defines hb h
  | class_ n ct neg cs rs => exact class_defines hb h
  | charSequence n ct cs => exact charSequence_defines hb h
  | sequence n ct items => exact sequence_defines hb h
  | choice n ct os => exact choice_defines hb h

theorem Syntax.calls_append (s : Syntax) : ∀ (cs ds : List Call),
    s.calls (cs ++ ds) = (s.calls cs).bind fun s => s.calls ds
  | [], ds => rfl
  | c :: cs, ds => by
    simp only [List.cons_append, Syntax.calls]
    split
    · exact Syntax.calls_append _ cs ds
    · rfl

/-- Everything that is needed about successful calls. -/
structure Called (cs : List Call) (s : Syntax) : Prop where
  built : Built s
  grammar : s.grammar = grammarOf cs
  root : ∀ n, rootOf cs = some n → s.rootName = n
  rootSome : cs ≠ [] → s.root ≠ none
  rootNotChar : s.RootNotChar
  explicitRoot : s.explicitRoot = cs.any fun c => c.commit.root
  whitespace : s.HasWhitespace ↔ ∃ c ∈ cs, c.commit.whitespace = true

theorem head?_append_some {α : Type} {l m : List α} {a : α} (h : l.head? = some a) :
    (l ++ m).head? = some a := by
  cases l with
  | nil => cases h
  | cons => exact h

theorem Called.snoc {cs : List Call} {c : Call} {s s' : Syntax} (h : Called cs s)
    (hd : Defines s c.name c.commit c.defs s') : Called (cs ++ [c]) s' := by
  refine ⟨hd.built, ?_, ?_, fun _ => hd.rootSome, hd.rootNotChar fun _ => h.rootNotChar, ?_, ?_⟩
  · rw [hd.grammar, h.grammar]
    funext n
    simp only [grammarOf, List.flatMap_append, lookup_append]
    simp
  · intro n hn
    rw [hd.rootName]
    cases hex : s.explicitRoot
    · have hnone : cs.filter (fun c => c.commit.root) = [] := by
        rw [h.explicitRoot] at hex
        rw [List.filter_eq_nil_iff]
        intro a ha hr
        rw [List.any_eq_false] at hex
        exact hex a ha hr
      unfold rootOf at hn
      rw [List.filter_append, hnone, List.nil_append] at hn
      have : n = c.name := by
        cases hr : c.commit.root
        · simp [hr] at hn; exact hn.symm
        · simp [hr] at hn; exact hn.symm
      simp [this]
    · have hcr : c.commit.root = false := by
        cases hr : c.commit.root
        · rfl
        · rw [hd.single hr] at hex; cases hex
      simp only [hcr, Bool.or_self, Bool.not_true, Bool.false_eq_true, if_false]
      refine h.root n ?_
      unfold rootOf at hn ⊢
      rw [List.filter_append] at hn
      simp only [hcr, List.filter_cons, Bool.false_eq_true, if_false, List.filter_nil,
        List.append_nil] at hn
      rw [h.explicitRoot, List.any_eq_true] at hex
      obtain ⟨a, ha, hr⟩ := hex
      cases hf : (cs.filter fun c => c.commit.root).head? with
      | none =>
        rw [List.head?_eq_none_iff, List.filter_eq_nil_iff] at hf
        exact absurd hr (hf a ha)
      | some x => rw [hf] at hn; exact hn
  · rw [hd.explicitRoot, h.explicitRoot]; simp
  · rw [hd.whitespace, h.whitespace]
    simp only [List.mem_append, List.mem_singleton]
    constructor
    · rintro (⟨x, hx, hw⟩ | hw)
      · exact ⟨x, Or.inl hx, hw⟩
      · exact ⟨c, Or.inr rfl, hw⟩
    · rintro ⟨x, hx | rfl, hw⟩
      · exact Or.inl ⟨x, hx, hw⟩
      · exact Or.inr hw

theorem made_called {cs : List Call} {s : Syntax} (h : Made cs s) : Called cs s := by
  induction h with
  | empty =>
    refine ⟨.empty, ?_, ?_, ?_, ?_, ?_, ?_⟩
    · funext n; simp [Syntax.grammar, Registry.lookup, grammarOf]
    · simp [rootOf]
    · simp
    · intro r d hr; cases hr
    · rfl
    · simp [Syntax.HasWhitespace]
  | call _ hc ih => exact ih.snoc (call_defines ih.built hc)
  | document _ hc ih => exact ih.snoc (internalCall_defines ih.built hc)

theorem Made.calls {pre : List Call} {s : Syntax} (h : Made pre s) : ∀ {cs : List Call} {s' : Syntax},
    s.calls cs = some s' → Made (pre ++ cs) s' := by
  intro cs
  induction cs generalizing pre s with
  | nil =>
    intro s' hc
    simp only [Syntax.calls, Option.some.injEq] at hc
    subst hc
    simpa using h
  | cons c cs ih =>
    intro s' hc
    simp only [Syntax.calls] at hc
    split at hc
    · rename_i s1 hs1
      have := ih (h.call hs1) hc
      simpa using this
    · cases hc

theorem calls_made {cs : List Call} {s : Syntax} (h : Syntax.calls {} cs = some s) : Made cs s := Made.empty.calls h

theorem Made.documents {pre : List Call} {s : Syntax} (h : Made pre s) : ∀ {cs : List Call} {s' : Syntax},
    s.internalCalls cs = (s', none) → Made (pre ++ cs) s' := by
  intro cs
  induction cs generalizing pre s with
  | nil =>
    intro s' hc
    simp only [Syntax.internalCalls, Prod.mk.injEq, and_true] at hc
    subst hc
    simpa using h
  | cons c cs ih =>
    intro s' hc
    simp only [Syntax.internalCalls] at hc
    split at hc
    · rename_i s1 hs1
      have := ih (h.document hs1) hc
      simpa using this
    · cases hc

/-- At most one of the accepted definitions is marked as root. -/
theorem made_root_unique {cs : List Call} {s : Syntax} (h : Made cs s) : ∀ {c c' : Call}, c ∈ cs →
    c.commit.root = true → c' ∈ cs → c'.commit.root = true → c = c' := by
  have step : ∀ {cs : List Call} {s s' : Syntax} {c : Call}, Made cs s → Defines s c.name c.commit c.defs s' →
      (∀ {c c' : Call}, c ∈ cs → c.commit.root = true → c' ∈ cs → c'.commit.root = true → c = c') →
      ∀ {a b : Call}, a ∈ cs ++ [c] → a.commit.root = true → b ∈ cs ++ [c] → b.commit.root = true → a = b := by
    intro cs s s' c h hd ih a b ha hra hb hrb
    have hno : c.commit.root = true → ∀ x ∈ cs, x.commit.root = true → False := by
      intro hr x hx hxr
      have := hd.single hr
      rw [(made_called h).explicitRoot, List.any_eq_false] at this
      exact this x hx hxr
    simp only [List.mem_append, List.mem_singleton] at ha hb
    rcases ha with ha | rfl <;> rcases hb with hb | rfl
    · exact ih ha hra hb hrb
    · exact (hno hrb a ha hra).elim
    · exact (hno hra b hb hrb).elim
    · rfl
  induction h with
  | empty => intro c c' hc; cases hc
  | call h hc ih => exact step h (call_defines (made_called h).built hc) ih
  | document h hc ih => exact step h (internalCall_defines (made_called h).built hc) ih

end Treerack
