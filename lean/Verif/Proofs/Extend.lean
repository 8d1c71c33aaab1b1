import Verif.Proofs.Agree
import Verif.Proofs.Language
import Verif.Spec.Act

/-
Two syntaxes that differ by some further definitions or by unused objects.
-/

namespace Treerack
open Spec

/-! ### the steps as registrations -/

def Syntax.registers (s : Syntax) : List Def → Syntax × Option SynErr
  | [] => (s, none)
  | d :: ds =>
    match s.register d with
    | (s, none) => s.registers ds
    | (s, some e) => (s, some e)

theorem registers_append (ds es : List Def) : ∀ s : Syntax, s.registers (ds ++ es) =
    match s.registers ds with
    | (s, none) => s.registers es
    | (s, some e) => (s, some e) := by
  induction ds with
  | nil => intro s; rfl
  | cons d ds ih =>
    intro s
    simp only [List.cons_append, Syntax.registers]
    cases h : s.register d with
    | mk s1 e =>
      cases e with
      | none => exact ih s1
      | some e => rfl

/-- The objects of a definition, with the given flags. -/
def Spec.Call.objects (c : Call) (ct : Commit) : List Def :=
  match c with
  | .anyChar n _ => [newChar (childName n 0) true [] [], newSequence n ct [{ name := childName n 0 }]]
  | .class_ n _ neg cs rs => [newChar (childName n 0) neg cs rs, newSequence n ct [{ name := childName n 0 }]]
  | .charSequence n _ cs =>
    cs.zipIdx.map (fun x => newChar (childName n x.2) false [x.1] []) ++
    [newSequence n { ct with noWhitespace := true } ((List.range cs.length).map fun i => { name := childName n i })]
  | .sequence n _ items => [newSequence n ct items]
  | .choice n _ os => [newChoice n ct os]

def Spec.Act.objects : Act → List Def
  | .api c => c.objects { c.commit with userDefined := true }
  | .document c => c.objects c.commit

theorem registers_one (s : Syntax) (d : Def) : s.registers [d] = s.register d := by
  simp only [Syntax.registers]
  cases s.register d with
  | mk s1 e => cases e <;> rfl

theorem class_registers (s : Syntax) (n : Name) (ct : Commit) (neg : Bool) (cs : List Rune) (rs : List (Rune × Rune)) :
    s.class_ n ct neg cs rs =
      s.registers [newChar (childName n 0) neg cs rs, newSequence n ct [{ name := childName n 0 }]] := by
  unfold Syntax.class_
  simp only [Syntax.registers]
  cases s.register (newChar (childName n 0) neg cs rs) with
  | mk s1 e =>
    cases e with
    | some e => rfl
    | none => exact (registers_one _ _).symm

theorem charSequenceLoop_registers (n : Name) : ∀ (cs : List Rune) (i : Nat) (refs : List Name) (s : Syntax),
    ((Syntax.charSequenceLoop n i cs refs s).1, (Syntax.charSequenceLoop n i cs refs s).2.1) =
      s.registers ((cs.zipIdx i).map fun x => newChar (childName n x.2) false [x.1] []) ∧
    ((Syntax.charSequenceLoop n i cs refs s).2.1 = none →
      (Syntax.charSequenceLoop n i cs refs s).2.2 = refs ++ (List.range' i cs.length).map (childName n))
  | [], i, refs, s => by simp [Syntax.charSequenceLoop, Syntax.registers]
  | c :: cs, i, refs, s => by
    simp only [Syntax.charSequenceLoop, List.zipIdx_cons, List.map_cons, Syntax.registers]
    cases h : s.register (newChar (childName n i) false [c] []) with
    | mk s1 e =>
      cases e with
      | some e => simp
      | none =>
        simp only
        obtain ⟨h1, h2⟩ := charSequenceLoop_registers n cs (i + 1) (refs ++ [childName n i]) s1
        refine ⟨h1, fun h => ?_⟩
        rw [h2 h, List.length_cons, List.range'_succ]
        simp

theorem charSequence_registers (s : Syntax) (n : Name) (ct ct' : Commit) (cs : List Rune) :
    s.charSequence_ n ct cs = s.registers ((Call.charSequence n ct' cs).objects ct) := by
  unfold Syntax.charSequence_
  simp only [Call.objects]
  rw [registers_append]
  obtain ⟨h1, h2⟩ := charSequenceLoop_registers n cs 0 [] s
  rw [← h1]
  revert h2
  cases Syntax.charSequenceLoop n 0 cs [] s with
  | mk s1 x =>
    obtain ⟨e, refs⟩ := x
    intro h2
    cases e with
    | some e => rfl
    | none =>
      simp only
      have h3 : refs = _ := h2 rfl
      rw [registers_one, h3, List.range_eq_range']
      simp [Syntax.sequence_, Function.comp_def]

theorem internalCall_registers (s : Syntax) (c : Call) (ct : Commit) :
    (match c with
      | .anyChar n _ => s.anyChar_ n ct
      | .class_ n _ neg cs rs => s.class_ n ct neg cs rs
      | .charSequence n _ cs => s.charSequence_ n ct cs
      | .sequence n _ items => s.sequence_ n ct items
      | .choice n _ os => s.choice_ n ct os) = s.registers (c.objects ct) := by
  cases c with
  | anyChar n _ => exact class_registers ..
  | class_ n _ neg cs rs => exact class_registers ..
  | charSequence n _ cs => exact charSequence_registers ..
  | sequence n _ items => exact (registers_one _ _).symm
  | choice n _ os => exact (registers_one _ _).symm

/-- A step is a list of registrations that depends only on the step. -/
theorem act_registers (s : Syntax) (a : Act) : s.act a =
    match a with
    | .api c => if !isValidSymbol c.name then (s, some .invalidSymbolName) else s.registers a.objects
    | .document _ => s.registers a.objects := by
  cases a with
  | api c =>
    simp only [Syntax.act, Act.objects]
    rw [← internalCall_registers]
    cases c <;> rfl
  | document c =>
    simp only [Syntax.act, Act.objects]
    rw [← internalCall_registers]
    cases c <;> rfl

theorem act_ok {s s' : Syntax} {a : Act} (h : s.act a = (s', none)) : s.registers a.objects = (s', none) := by
  rw [act_registers] at h
  cases a with
  | api c =>
    simp only at h
    split at h
    · simp at h
    · exact h
  | document c => exact h

theorem objects_raw (c : Call) (ct : Commit) : ∀ d ∈ c.objects ct, RawDef d := by
  intro d hd
  cases c with
  | anyChar n _ =>
    simp only [Call.objects, List.mem_cons, List.not_mem_nil, or_false] at hd
    rcases hd with rfl | rfl
    · exact .char ..
    · exact .seq ..
  | class_ n _ neg cs rs =>
    simp only [Call.objects, List.mem_cons, List.not_mem_nil, or_false] at hd
    rcases hd with rfl | rfl
    · exact .char ..
    · exact .seq ..
  | charSequence n _ cs =>
    simp only [Call.objects, List.mem_append, List.mem_map, List.mem_cons, List.not_mem_nil, or_false] at hd
    rcases hd with ⟨x, -, rfl⟩ | rfl
    · exact .char ..
    · exact .seq ..
  | sequence n _ items =>
    simp only [Call.objects, List.mem_cons, List.not_mem_nil, or_false] at hd
    subst hd; exact .seq ..
  | choice n _ os =>
    simp only [Call.objects, List.mem_cons, List.not_mem_nil, or_false] at hd
    subst hd; exact .choice ..

theorem act_raw (a : Act) : ∀ d ∈ a.objects, RawDef d := by
  cases a <;> exact objects_raw _ _

/-! ### the registered objects by name -/

/-- The object of a name, without its id and its root flag. -/
def Syntax.body (s : Syntax) (n : Name) : Option (Commit × DKind) :=
  (s.object n).map fun x => ({ x.1 with root := false }, x.2)

def Syntax.rootN (s : Syntax) : Option Name := s.root.map s.nameAt

def Syntax.kwNames (s : Syntax) : List Name := s.keywords.map s.nameAt

/-- The names of the whitespace definitions. -/
def Syntax.wsList (s : Syntax) : List Name :=
  (s.registry.definitions.filter fun p => (Syntax.commitOf s.heap p).whitespace).filterMap
    fun p => (s.heap[p]?).map Def.name

theorem SInv.body_none {s : Syntax} (hs : SInv s) {n : Name} : s.body n = none ↔ s.registry.lookup n = none := by
  unfold Syntax.body
  rw [Option.map_eq_none_iff, hs.object_none]

section

variable {s s' : Syntax} {d : Def}

theorem Registered.lookup (hr : Registered s d s') (n : Name) :
    s'.registry.lookup n = if n = d.name then some s.heap.length else s.registry.lookup n := by
  rw [hr.registry]
  unfold Registry.lookup
  simp only [List.lookup_cons]
  by_cases hn : n = d.name
  · simp [hn]
  · rw [if_neg hn, show (n == d.name) = false by simpa using hn]

theorem withRoot_body (b : Bool) (e : Def) :
    ({ (e.withRoot b).commit with root := false } : Commit) = { e.commit with root := false } := by
  cases hk : e.kind.isChar with
  | true => rw [withRoot_char _ _ hk]
  | false => rw [withRoot_commit _ _ hk]

theorem Registered.body (hs : SInv s) (hr : Registered s d s') (n : Name) :
    s'.body n = if n = d.name then some ({ d.commit with root := false }, d.kind) else s.body n := by
  unfold Syntax.body Syntax.object
  rw [hr.lookup]
  by_cases hn : n = d.name
  · simp only [if_pos hn, Option.bind_some, hr.new, Option.map_some]
    cases s.takesRoot d with
    | false => simp
    | true =>
      simp only [if_true, Option.some.injEq, Prod.mk.injEq]
      exact ⟨withRoot_body true d, withRoot_kind ..⟩
  · rw [if_neg hn, if_neg hn]
    cases hl : s.registry.lookup n with
    | none => rfl
    | some p =>
      obtain ⟨hp, e, he, -⟩ := (hs.lookup n p).1 hl
      simp only [Option.bind_some]
      rw [hr.old p (hs.mem_lt hp), he]
      by_cases hc : s.takesRoot d = true ∧ s.root = some p
      · rw [if_pos hc]
        simp only [Option.map_some, Option.some.injEq, Prod.mk.injEq]
        exact ⟨withRoot_body false e, withRoot_kind ..⟩
      · rw [if_neg hc]; rfl

theorem Registered.rootN (hs : SInv s) (hr : Registered s d s') :
    s'.rootN = if s.takesRoot d then some d.name else s.rootN := by
  unfold Syntax.rootN
  rw [hr.root]
  cases s.takesRoot d with
  | true => simp [hr.nameAt_new]
  | false =>
    simp only [Bool.false_eq_true, if_false]
    cases h : s.root with
    | none => rfl
    | some r => simp [hr.nameAt_old (hs.root_lt r h)]

theorem Registered.kwNames (hs : SInv s) (hr : Registered s d s') :
    s'.kwNames = s.kwNames ++ (if d.commitType.keyword then [d.name] else []) := by
  unfold Syntax.kwNames
  rw [hr.keywords, List.map_append]
  congr 1
  · apply List.map_congr_left
    intro k hk
    exact hr.nameAt_old (hs.mem_lt ((hs.keywords k).1 hk).1)
  · split <;> simp [hr.nameAt_new]

theorem wsList_congr {h h' : Heap} {l : List Ptr} (hn : ∀ p ∈ l, (h'[p]?).map Def.name = (h[p]?).map Def.name)
    (hw : ∀ p ∈ l, (Syntax.commitOf h' p).whitespace = (Syntax.commitOf h p).whitespace) :
    (l.filter fun p => (Syntax.commitOf h' p).whitespace).filterMap (fun p => (h'[p]?).map Def.name) =
      (l.filter fun p => (Syntax.commitOf h p).whitespace).filterMap (fun p => (h[p]?).map Def.name) := by
  induction l with
  | nil => rfl
  | cons a l ih =>
    have ih' := ih (fun p hp => hn p (by simp [hp])) (fun p hp => hw p (by simp [hp]))
    simp only [List.filter_cons, hw a (by simp)]
    split
    · simp only [List.filterMap_cons, hn a (by simp)]
      rw [ih']
    · exact ih'

theorem withRoot_whitespace (b : Bool) (e : Def) : (e.withRoot b).commitType.whitespace = e.commitType.whitespace := by
  cases h : e.kind.isChar
  · rw [commitType_notChar h, commitType_notChar (by rw [withRoot_kind]; exact h), withRoot_commit _ _ h]
  · rw [withRoot_char _ _ h]

theorem Registered.wsList (hs : SInv s) (hr : Registered s d s') :
    s'.wsList = s.wsList ++ (if d.commitType.whitespace then [d.name] else []) := by
  have hnew : s'.registry.definitions = s.registry.definitions ++ [s.heap.length] := by rw [hr.registry]
  have hget : ∀ p ∈ s.registry.definitions, ∃ e, s.heap[p]? = some e ∧ (s'.heap[p]? = some e ∨ s'.heap[p]? = some (e.withRoot false)) := by
    intro p hp
    have hlt := hs.mem_lt hp
    obtain ⟨e, he⟩ : ∃ e, s.heap[p]? = some e := ⟨_, List.getElem?_eq_getElem hlt⟩
    refine ⟨e, he, ?_⟩
    rw [hr.old p hlt, he]
    split
    · exact .inr rfl
    · exact .inl rfl
  unfold Syntax.wsList
  rw [hnew, List.filter_append, List.filterMap_append]
  congr 1
  · apply wsList_congr
    · intro p hp
      obtain ⟨e, he, h1 | h1⟩ := hget p hp <;> rw [he, h1] <;> simp [withRoot_name]
    · intro p hp
      unfold Syntax.commitOf
      obtain ⟨e, he, h1 | h1⟩ := hget p hp <;> rw [he, h1] <;> simp [withRoot_whitespace]
  · obtain ⟨e, he, h1, h2⟩ : ∃ e, s'.heap[s.heap.length]? = some e ∧ e.name = d.name ∧
        e.commitType.whitespace = d.commitType.whitespace := by
      refine ⟨_, hr.new, ?_, ?_⟩
      · simp only
        split
        · exact withRoot_name ..
        · rfl
      · have hid : ∀ (e : Def) (i : Nat), ({ e with id := i } : Def).commitType = e.commitType := fun _ _ => rfl
        rw [hid]
        split
        · exact withRoot_whitespace ..
        · rfl
    simp only [List.filter_cons, List.filter_nil, Syntax.commitOf, he, h2, Option.map_some, Option.getD_some]
    split <;> simp [he, h1]

end

/-! ### one syntax has more definitions than another one -/

/-- `t` has the definitions of `s`, and further ones with the names in `X`. -/
structure Ext (X : Name → Prop) (s t : Syntax) : Prop where
  invS : SInv s
  invT : SInv t
  body : ∀ n, ¬ X n → s.body n = t.body n
  fresh : ∀ n, X n → s.body n = none
  there : ∀ n, X n → t.body n ≠ none
  root : (∃ n, X n ∧ t.rootN = some n) ∨ s.rootN = t.rootN
  keywords : s.kwNames = t.kwNames
  explicit : s.explicitRoot = t.explicitRoot
  ws : s.wsList = t.wsList

theorem Ext.refl {s : Syntax} (hs : SInv s) : Ext (fun _ => False) s s :=
  ⟨hs, hs, fun _ _ => rfl, fun _ h => h.elim, fun _ h => h.elim, .inr rfl, rfl, rfl, rfl⟩

/-- An object that is not registered. -/
theorem Ext.orphan {s : Syntax} (hs : SInv s) (d : Def) (hs' : SInv { s with heap := s.heap ++ [d] }) :
    Ext (fun _ => False) s { s with heap := s.heap ++ [d] } := by
  have hget : ∀ p, p ∈ s.registry.definitions → (s.heap ++ [d])[p]? = s.heap[p]? := fun p hp =>
    List.getElem?_append_left (hs.mem_lt hp)
  have hname : ∀ p, p ∈ s.registry.definitions → ({ s with heap := s.heap ++ [d] } : Syntax).nameAt p = s.nameAt p := by
    intro p hp
    simp only [Syntax.nameAt]
    rw [hget p hp]
  refine ⟨hs, hs', fun n _ => ?_, fun _ h => h.elim, fun _ h => h.elim, .inr ?_, ?_, rfl, ?_⟩
  · unfold Syntax.body Syntax.object
    simp only
    cases hl : s.registry.lookup n with
    | none => rfl
    | some p =>
      simp only [Option.bind_some]
      rw [hget p ((hs.lookup n p).1 hl).1]
  · unfold Syntax.rootN
    simp only
    cases hr : s.root with
    | none => rfl
    | some r => exact congrArg some (hname r (hs.rootIn r hr)).symm
  · unfold Syntax.kwNames
    simp only
    apply List.map_congr_left
    intro k hk
    exact (hname k ((hs.keywords k).1 hk).1).symm
  · unfold Syntax.wsList
    simp only
    refine (wsList_congr ?_ ?_).symm
    · intro p hp; rw [hget p hp]
    · intro p hp; unfold Syntax.commitOf; rw [hget p hp]

section

variable {X : Name → Prop} {s t : Syntax}

theorem Ext.takesRoot (h : Ext X s t) (d : Def) : s.takesRoot d = t.takesRoot d := by
  unfold Syntax.takesRoot; rw [h.explicit]

/-- The same registration on both sides. -/
theorem Ext.both (h : Ext X s t) {d : Def} (hd : RawDef d) {s' t' : Syntax} (hs : s.register d = (s', none))
    (ht : t.register d = (t', none)) : Ext X s' t' := by
  have rs := register_spec h.invS.root_lt hs
  have rt := register_spec h.invT.root_lt ht
  have hx : ∀ n, X n → n ≠ d.name := by
    rintro n hn rfl
    exact h.there _ hn (h.invT.body_none.2 rt.noDup)
  refine ⟨h.invS.register hd rs, h.invT.register hd rt, ?_, ?_, ?_, ?_, ?_, ?_, ?_⟩
  · intro n hn
    rw [rs.body h.invS, rt.body h.invT, h.body n hn]
  · intro n hn
    rw [rs.body h.invS, if_neg (hx n hn)]; exact h.fresh n hn
  · intro n hn
    rw [rt.body h.invT, if_neg (hx n hn)]; exact h.there n hn
  · rw [rs.rootN h.invS, rt.rootN h.invT, h.takesRoot]
    cases t.takesRoot d with
    | true => exact .inr rfl
    | false => exact h.root
  · rw [rs.kwNames h.invS, rt.kwNames h.invT, h.keywords]
  · rw [rs.explicitRoot, rt.explicitRoot, h.explicit]
  · rw [rs.wsList h.invS, rt.wsList h.invT, h.ws]

/-- A further registration. -/
theorem Ext.one (h : Ext X s t) {d : Def} (hd : RawDef d) (hroot : d.commitType.root = false)
    (hkw : d.commitType.keyword = false) (hws : d.commitType.whitespace = false) {t' : Syntax} (ht : t.register d = (t', none)) :
    Ext (fun n => X n ∨ n = d.name) s t' := by
  have rt := register_spec h.invT.root_lt ht
  refine ⟨h.invS, h.invT.register hd rt, ?_, ?_, ?_, ?_, ?_, ?_, ?_⟩
  · intro n hn
    rw [rt.body h.invT, if_neg (fun hc => hn (.inr hc)), h.body n (fun hc => hn (.inl hc))]
  · rintro n (hn | rfl)
    · exact h.fresh n hn
    · by_cases hx : X d.name
      · exact h.fresh _ hx
      · rw [h.body _ hx]; exact h.invT.body_none.2 rt.noDup
  · rintro n (hn | rfl)
    · rw [rt.body h.invT]
      split
      · simp
      · exact h.there n hn
    · rw [rt.body h.invT, if_pos rfl]; simp
  · rw [rt.rootN h.invT]
    cases t.takesRoot d with
    | true => exact .inl ⟨d.name, .inr rfl, rfl⟩
    | false =>
      rcases h.root with ⟨n, h1, h2⟩ | h1
      · exact .inl ⟨n, .inl h1, h2⟩
      · exact .inr h1
  · rw [rt.kwNames h.invT, h.keywords, hkw]; simp
  · rw [rt.explicitRoot, h.explicit, hroot]; simp
  · rw [rt.wsList h.invT, h.ws, hws]; simp

theorem Ext.bothAll (h : Ext X s t) : ∀ {ds : List Def}, (∀ d ∈ ds, RawDef d) → ∀ {s' t' : Syntax},
    s.registers ds = (s', none) → t.registers ds = (t', none) → Ext X s' t' := by
  intro ds
  induction ds generalizing s t with
  | nil => intro _ s' t' hs ht; cases hs; cases ht; exact h
  | cons d ds ih =>
    intro hd s' t' hs ht
    simp only [Syntax.registers] at hs ht
    cases h1 : s.register d with
    | mk s1 e1 =>
      cases h2 : t.register d with
      | mk t1 e2 =>
        rw [h1] at hs
        rw [h2] at ht
        cases e1 with
        | some e => simp at hs
        | none =>
          cases e2 with
          | some e => simp at ht
          | none =>
            exact ih (h.both (hd d (by simp)) h1 h2) (fun d' h' => hd d' (by simp [h'])) hs ht

theorem Ext.oneAll (h : Ext X s t) : ∀ {ds : List Def}, (∀ d ∈ ds, RawDef d) →
    (∀ d ∈ ds, d.commitType.root = false ∧ d.commitType.keyword = false ∧ d.commitType.whitespace = false) → ∀ {t' : Syntax},
    t.registers ds = (t', none) → Ext (fun n => X n ∨ n ∈ ds.map Def.name) s t' := by
  intro ds
  induction ds generalizing X t with
  | nil =>
    intro _ _ t' ht
    cases ht
    simpa using h
  | cons d ds ih =>
    intro hd hf t' ht
    simp only [Syntax.registers] at ht
    cases h2 : t.register d with
    | mk t1 e2 =>
      rw [h2] at ht
      cases e2 with
      | some e => simp at ht
      | none =>
        have h3 := ih (h.one (hd d (by simp)) (hf d (by simp)).1 (hf d (by simp)).2.1 (hf d (by simp)).2.2 h2)
          (fun d' h' => hd d' (by simp [h'])) (fun d' h' => hf d' (by simp [h'])) ht
        simpa [or_assoc] using h3

theorem Ext.acts (h : Ext X s t) : ∀ {as : List Act} {s' t' : Syntax}, s.acts as = some s' → t.acts as = some t' →
    Ext X s' t' := by
  intro as
  induction as generalizing s t with
  | nil => intro s' t' hs ht; cases hs; cases ht; exact h
  | cons a as ih =>
    intro s' t' hs ht
    simp only [Syntax.acts] at hs ht
    cases h1 : s.act a with
    | mk s1 e1 =>
      cases h2 : t.act a with
      | mk t1 e2 =>
        rw [h1] at hs
        rw [h2] at ht
        cases e1 with
        | some e => simp at hs
        | none =>
          cases e2 with
          | some e => simp at ht
          | none => exact ih (h.bothAll (act_raw a) (act_ok h1) (act_ok h2)) hs ht

/-- Without the further definitions there is no difference between the syntaxes. -/
theorem Ext.agreeOn (h : Ext X s t) {N : Name → Prop} (hN : ∀ n, N n → ¬ X n) (hroot : ∀ n, t.rootN = some n → N n) (hkw : ∀ n ∈ s.kwNames, N n)
    (hcl : ∀ n ct k, N n → s.object n = some (ct, k) → ∀ m ∈ k.refs, N m) : AgreeOn N s t := by
  have hr : s.rootN = t.rootN := by
    rcases h.root with ⟨n, h1, h2⟩ | h1
    · exact absurd h1 (hN n (hroot n h2))
    · exact h1
  have hname : ∀ {u : Syntax} (_ : SInv u) {p : Ptr}, p ∈ u.registry.definitions →
      u.registry.lookup (u.nameAt p) = some p := by
    intro u hu p hp
    obtain ⟨i, hi⟩ := List.getElem?_of_mem hp
    obtain ⟨d, hd, -⟩ := hu.ids i p hi
    exact (hu.lookup _ p).2 ⟨hp, d, hd, by simp [Syntax.nameAt, hd]⟩
  refine ⟨h.invS, h.invT, ?_, ?_, ?_, hcl⟩
  · unfold Syntax.rootN at hr hroot
    cases h1 : s.root with
    | none =>
      cases h2 : t.root with
      | none => exact .none
      | some q => rw [h1, h2] at hr; cases hr
    | some p =>
      cases h2 : t.root with
      | none => rw [h1, h2] at hr; cases hr
      | some q =>
        rw [h1, h2] at hr
        simp only [Option.map_some, Option.some.injEq] at hr
        refine .some ⟨s.nameAt p, ?_, hname h.invS (h.invS.rootIn p h1), ?_⟩
        · exact hroot _ (by rw [h2, hr]; rfl)
        · rw [hr]; exact hname h.invT (h.invT.rootIn q h2)
  · have hk := h.keywords
    unfold Syntax.kwNames at hk hkw
    have hm1 : ∀ k ∈ s.keywords, s.registry.lookup (s.nameAt k) = some k := fun k hk =>
      hname h.invS ((h.invS.keywords k).1 hk).1
    have hm2 : ∀ k ∈ t.keywords, t.registry.lookup (t.nameAt k) = some k := fun k hk =>
      hname h.invT ((h.invT.keywords k).1 hk).1
    revert hk hkw hm1 hm2
    generalize s.keywords = ks
    generalize t.keywords = kt
    intro hkw hk hm1 hm2
    induction ks generalizing kt with
    | nil =>
      cases kt with
      | nil => exact .nil
      | cons => cases hk
    | cons k ks ih =>
      cases kt with
      | nil => cases hk
      | cons k' kt =>
        simp only [List.map_cons, List.cons.injEq] at hk
        refine .cons ⟨s.nameAt k, hkw _ (by simp), hm1 k (by simp), by rw [hk.1]; exact hm2 k' (by simp)⟩ ?_
        exact ih kt (fun n hn => hkw n (by simp only [List.map_cons, List.mem_cons]; exact .inr hn)) hk.2
          (fun x hx => hm1 x (by simp [hx])) (fun x hx => hm2 x (by simp [hx]))
  · intro n hn
    have hb := h.body n (hN n hn)
    have key : ∀ {u : Syntax} (_ : SInv u) (m : Name), u.object m =
        (u.body m).map fun x => ({ x.1 with root := !x.2.isChar && (u.rootN == some m) }, x.2) := by
      intro u hu m
      unfold Syntax.body
      rw [Option.map_map]
      cases ho : u.registry.lookup m with
      | none => simp [Syntax.object, ho]
      | some p =>
        obtain ⟨d, hd, hn, ho'⟩ := hu.object_some ho
        have hp := ((hu.lookup m p).1 ho).1
        rw [ho']
        simp only [Option.map_some, Function.comp_apply, Option.some.injEq, Prod.mk.injEq, and_true]
        have : d.commit.root = (!d.kind.isChar && (u.rootN == some m)) := by
          cases hk : d.kind.isChar with
          | true => rw [hu.charCommit p d hd hk]; rfl
          | false =>
            simp only [Bool.not_false, Bool.true_and]
            rw [Bool.eq_iff_iff, hu.rootFlag p d hp hd hk, beq_iff_eq]
            unfold Syntax.rootN
            constructor
            · intro hr; rw [hr]; simp [Syntax.nameAt, hd, hn]
            · intro hr
              cases hur : u.root with
              | none => rw [hur] at hr; cases hr
              | some r =>
                rw [hur] at hr
                simp only [Option.map_some, Option.some.injEq] at hr
                have := hname hu (hu.rootIn r hur)
                rw [hr, ho] at this
                exact this.symm
        rw [← this]
    rw [key h.invS, key h.invT, hb, hr]

theorem Ext.agree (h : Ext X s t) {N : Name → Prop} (hN : ∀ n, N n → ¬ X n) (hws : ¬ s.HasWhitespace)
    (hwt : ¬ t.HasWhitespace) (hroot : ∀ n, t.rootN = some n → N n) (hkw : ∀ n ∈ s.kwNames, N n)
    (hcl : ∀ n ct k, N n → s.object n = some (ct, k) → ∀ m ∈ k.refs, N m) : Agree N s t :=
  ⟨h.agreeOn hN hroot hkw hcl, hws, hwt⟩

end

end Treerack
