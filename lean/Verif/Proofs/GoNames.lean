import Verif.Proofs.GoGenerate
import Verif.Proofs.Definitions

/-
The names that are printed in the generated code are the names of the definitions.
-/

namespace Treerack
open Spec Whitespace

/-- The name is fine, or it is the name of a character, that is never printed. -/
def NameFine (Q : Name → Prop) (d : Def) : Prop := d.kind.isChar = true ∨ Q d.name

/-- The same, or an object made for the whitespace. -/
def NameFineWs (Q : Name → Prop) (d : Def) : Prop :=
  NameFine Q d ∨ (d.commitType.alias = true ∧ d.commitType.userDefined = false ∧ d.commitType.root = false)

section
variable {Q : Name → Prop}

theorem NameFine.sk {d e : Def} (h : d.sk = e.sk) (hd : NameFine Q e) : NameFine Q d := by
  rcases hd with hd | hd
  · exact .inl ((Def.sk_isChar h).trans hd)
  · exact .inr (by rw [Def.sk_name h]; exact hd)

theorem commitType_eq (d : Def) : d.commitType = if d.kind.isChar then { alias := true } else d.commit := by
  unfold Def.commitType
  cases d.kind <;> rfl

theorem NameFineWs.sk {d e : Def} (h : d.sk = e.sk) (hd : NameFineWs Q e) : NameFineWs Q d := by
  rcases hd with hd | hd
  · exact .inl (hd.sk h)
  · have : d.commitType = e.commitType := by rw [commitType_eq, commitType_eq, Def.sk_isChar h, Def.sk_commit h]
    exact .inr (by rw [this]; exact hd)

theorem NameFine.setCommitType {d : Def} (h : NameFine Q d) (ct : Commit) : NameFine Q (d.setCommitType ct) := by
  unfold Def.setCommitType
  cases hk : d.kind with
  | char neg cs rs => exact h
  | choice os ds => rcases h with h | h
                    · rw [hk] at h; cases h
                    · exact .inr h
  | seq a b c d e => rcases h with h | h
                     · rw [hk] at h; cases h
                     · exact .inr h

/-- All the objects. -/
def Heap.Each (P : Def → Prop) (h : Heap) : Prop := ∀ (p : Ptr) d, h[p]? = some d → P d

theorem Heap.Each.update {P : Def → Prop} {h : Heap} (hh : h.Each P) (p : Ptr) {f : Def → Def} (hf : ∀ d, P d → P (f d)) :
    (h.update p f).Each P := by
  intro q d hd
  rw [Heap.getElem?_update] at hd
  split at hd
  · obtain ⟨e, h1, rfl⟩ := Option.map_eq_some_iff.1 hd
    exact hf e (hh q e h1)
  · exact hh q d hd

theorem Heap.Each.append {P : Def → Prop} {h : Heap} (hh : h.Each P) {ds : List Def} (hd : ∀ d ∈ ds, P d) : Heap.Each P (h ++ ds) := by
  intro q e he
  rw [List.getElem?_append] at he
  split at he
  · exact hh q e he
  · exact hd e (List.mem_of_getElem? he)

theorem Heap.Each.mono {P P' : Def → Prop} {h : Heap} (hh : h.Each P) (hp : ∀ d, P d → P' d) : h.Each P' :=
  fun p d hd => hp d (hh p d hd)

theorem Heap.Each.sk {h h' : Heap} (hh : h.Each (NameFineWs Q)) (hs : SameSk h h') : h'.Each (NameFineWs Q) := by
  intro p d hd
  obtain ⟨e, h1, h2⟩ := hs.symm.to hd
  exact (hh p e h1).sk h2.symm

/-! ### The definitions -/

theorem register_each {s : Syntax} {d : Def} (hs : s.heap.Each (NameFine Q)) (hd : NameFine Q d) :
    (s.register d).1.heap.Each (NameFine Q) := by
  have happ : Heap.Each (NameFine Q) (s.heap ++ [d]) := hs.append fun e he => by
    rw [List.mem_singleton.1 he]; exact hd
  have hset : ∀ {h : Heap}, h.Each (NameFine Q) → ∀ (p : Ptr) (b : Bool),
      (h.update p fun d => d.setCommitType { d.commitType with root := b }).Each (NameFine Q) :=
    fun hh p b => hh.update p fun d h => h.setCommitType _
  have hap : ∀ (t : Syntax) (p : Ptr), t.heap.Each (NameFine Q) → (t.applyRoot p).1.heap.Each (NameFine Q) := by
    intro t p ht
    unfold Syntax.applyRoot
    rcases t with ⟨heap, registry, initialized, initFailed, explicitRoot, keywords, root⟩
    simp only at ht ⊢
    generalize (Syntax.commitOf heap p).root = ct
    cases ct <;> cases explicitRoot <;> cases root <;> simp <;>
      first
        | exact ht
        | exact hset ht _ _
        | exact hset (hset ht _ _) _ _
  unfold Syntax.register
  split
  · exact hs
  · simp only
    split
    · exact happ
    · have := hap { s with heap := s.heap ++ [d] } s.heap.length happ
      split
      · rename_i h; rw [h] at this; exact this
      · rename_i s1 h
        rw [h] at this
        simp only at this ⊢
        have hk : (if (Syntax.commitOf s1.heap s.heap.length).keyword = true then { s1 with keywords := s1.keywords ++ [s.heap.length] }
            else s1).heap = s1.heap := by split <;> rfl
        generalize (if (Syntax.commitOf s1.heap s.heap.length).keyword = true then
          { s1 with keywords := s1.keywords ++ [s.heap.length] } else s1) = s2 at hk
        unfold Registry.setDefinition
        rw [hk]
        split
        · exact this
        · split
          · exact this
          · exact this.update _ fun d h => h

theorem class_each {s : Syntax} {n : Name} (hn : Q n) (hs : s.heap.Each (NameFine Q)) (ct : Commit) (neg : Bool) (cs : List Rune)
    (rs : List (Rune × Rune)) : (s.class_ n ct neg cs rs).1.heap.Each (NameFine Q) := by
  unfold Syntax.class_
  simp only
  have h1 := register_each (d := newChar (childName n 0) neg cs rs) hs (.inl rfl)
  generalize s.register (newChar (childName n 0) neg cs rs) = x at h1
  obtain ⟨s1, e⟩ := x
  cases e with
  | some e => exact h1
  | none => exact register_each h1 (.inr hn)

theorem charSequenceLoop_each (n : Name) : ∀ (cs : List Rune) (i : Nat) (refs : List Name) (s : Syntax), s.heap.Each (NameFine Q) →
    (Syntax.charSequenceLoop n i cs refs s).1.heap.Each (NameFine Q)
  | [], _, _, _, hs => hs
  | c :: cs, i, refs, s, hs => by
    unfold Syntax.charSequenceLoop
    simp only
    have h1 := register_each (d := newChar (childName n i) false [c] []) hs (.inl rfl)
    generalize s.register (newChar (childName n i) false [c] []) = x at h1
    obtain ⟨s1, e⟩ := x
    cases e with
    | some e => exact h1
    | none => exact charSequenceLoop_each n cs _ _ _ h1

theorem internalCall_each {s : Syntax} {c : Call} (hn : Q c.name) (hs : s.heap.Each (NameFine Q)) :
    (s.internalCall c).1.heap.Each (NameFine Q) := by
  cases c with
  | anyChar n ct => exact class_each hn hs _ _ _ _
  | class_ n ct neg cs rs => exact class_each hn hs _ _ _ _
  | charSequence n ct cs =>
    show (Syntax.charSequence_ ..).1.heap.Each (NameFine Q)
    unfold Syntax.charSequence_
    have := charSequenceLoop_each (Q := Q) n cs 0 [] s hs
    generalize Syntax.charSequenceLoop n 0 cs [] s = x at this
    obtain ⟨s1, e, refs⟩ := x
    cases e with
    | some e => exact this
    | none => exact register_each this (.inr hn)
  | sequence n ct items => exact register_each hs (.inr hn)
  | choice n ct os => exact register_each hs (.inr hn)

/-- The call with the mark of the definitions made by the user. -/
def Spec.Call.marked : Call → Call
  | .anyChar n ct => .anyChar n { ct with userDefined := true }
  | .class_ n ct neg cs rs => .class_ n { ct with userDefined := true } neg cs rs
  | .charSequence n ct cs => .charSequence n { ct with userDefined := true } cs
  | .sequence n ct items => .sequence n { ct with userDefined := true } items
  | .choice n ct os => .choice n { ct with userDefined := true } os

theorem call_marked (s : Syntax) (c : Call) : s.call c =
    if !isValidSymbol c.name then (s, some .invalidSymbolName) else s.internalCall c.marked := by
  cases c <;> rfl

theorem Spec.Call.marked_name (c : Call) : c.marked.name = c.name := by cases c <;> rfl

theorem made_each {cs : List Call} {s : Syntax} (h : Made cs s) : (∀ c ∈ cs, Q c.name) → s.heap.Each (NameFine Q) := by
  induction h with
  | empty => intro _ p d hd; simp at hd
  | @call cs s s' c hm hc ih =>
    intro hq
    have h1 := ih fun c hc => hq c (by simp [hc])
    rw [call_marked] at hc
    split at hc
    · cases hc
    · have := internalCall_each (c := c.marked) (by rw [c.marked_name]; exact hq c (by simp)) h1
      rw [hc] at this
      exact this
  | @document cs s s' c hm hc ih =>
    intro hq
    have := internalCall_each (hq c (by simp)) (ih fun c hc => hq c (by simp [hc]))
    rw [hc] at this
    exact this

/-! ### Whitespace -/

theorem foldl_each {P : Def → Prop} {f : Heap → Ptr → Heap} (hf : ∀ h p, Heap.Each P h → Heap.Each P (f h p)) :
    ∀ (ps : List Ptr) (h : Heap), h.Each P → Heap.Each P (ps.foldl f h)
  | [], _, h => h
  | p :: ps, h, hh => foldl_each hf ps _ (hf h p hh)

theorem applyToItem_alias (n : Name) (i : Nat) (item : SeqItem) : ∀ d ∈ (applyToItem n i item).1, NameFineWs Q d := by
  intro d hd
  unfold applyToItem at hd
  simp only at hd
  split at hd
  · cases hd
  · split at hd
    · simp only [List.mem_singleton] at hd
      subst hd
      exact .inr ⟨rfl, rfl, rfl⟩
    · simp only [List.mem_cons, List.not_mem_nil, or_false] at hd
      rcases hd with rfl | rfl
      · exact .inr ⟨rfl, rfl, rfl⟩
      · exact .inr ⟨rfl, rfl, rfl⟩

theorem applyToItems_alias (n : Name) : ∀ (items : List SeqItem) (i : Nat), ∀ d ∈ (applyToItems n i items).1, NameFineWs Q d
  | [], _, d, hd => by cases hd
  | item :: items, i, d, hd => by
    unfold applyToItems at hd
    simp only [List.mem_append] at hd
    rcases hd with hd | hd
    · exact applyToItem_alias n i item d hd
    · exact applyToItems_alias n items (i + 1) d hd

theorem applyToDefs_each : ∀ (ps : List Ptr) (h : Heap), h.Each (NameFineWs Q) → (applyToDefs ps h).2.Each (NameFineWs Q)
  | [], _, hh => hh
  | p :: ps, h, hh => by
    unfold applyToDefs
    simp only
    apply applyToDefs_each ps
    cases hp : h[p]? with
    | none => exact hh
    | some d =>
      simp only
      split
      · exact hh
      · cases hk : d.kind with
        | char neg cs rs => exact hh
        | choice os ds => exact hh
        | seq a items b c e =>
          simp only [alloc]
          refine hh.append fun x hx => ?_
          unfold applyToSeq at hx
          simp only [List.mem_append, List.mem_singleton] at hx
          rcases hx with hx | rfl
          · exact applyToItems_alias d.name items 0 x hx
          · rcases hh p d hp with h1 | h1
            · rcases h1 with h1 | h1
              · rw [hk] at h1; cases h1
              · exact .inl (.inr h1)
            · exact .inr h1

theorem prepare_each {s s1 : Syntax} {root r1 : Ptr} (hq : ∀ n, Q n → Q (patchName [n, runes "wsroot"]))
    (hs : s.heap.Each (NameFine Q)) (h : s.prepare root = .ok (s1, r1)) : s1.heap.Each (NameFineWs Q) := by
  unfold Syntax.prepare at h
  simp only at h
  have hpre : Heap.Each (NameFine Q) (s.registry.definitions.foldl (fun h p => h.update p Def.initRanges) s.heap) :=
    foldl_each (fun h p hh => hh.update p fun d hd => hd.sk d.initRanges_sk) _ _ hs
  generalize s.registry.definitions.foldl (fun h p => h.update p Def.initRanges) s.heap = h0 at hpre h
  split at h
  · obtain ⟨⟨h4, defs, r⟩, ha, h⟩ := Res.bind_eq_ok h
    simp only at h
    have hreg := newRegistry_weak h4 defs
    generalize Registry.newRegistry h4 defs = x at hreg h
    cases h
    have h4e : h4.Each (NameFineWs Q) := by
      unfold apply at ha
      have hsplit : (splitDefs h0 s.registry.definitions).2.2.Each (NameFine Q) := by
        unfold splitDefs
        refine foldl_each (fun h p hh => ?_) _ _ hpre
        split
        · exact hh.update p fun d hd => hd.setCommitType _
        · exact hh
      generalize splitDefs h0 s.registry.definitions = y at hsplit ha
      obtain ⟨wsDefs, defs1, h1⟩ := y
      simp only at hsplit ha
      have h3 : Heap.Each (NameFineWs Q) (applyToDefs defs1 (h1 ++ [mergeDefs h1 wsDefs])).2 :=
        applyToDefs_each _ _ ((hsplit.mono fun d hd => .inl hd).append fun d hd => by
          rw [List.mem_singleton.1 hd]
          exact .inr ⟨rfl, rfl, rfl⟩)
      generalize applyToDefs defs1 (h1 ++ [mergeDefs h1 wsDefs]) = z at h3 ha
      obtain ⟨defs3, h3'⟩ := z
      simp only at h3 ha
      split at ha
      · cases ha
      · rename_i r' hr
        split at ha
        · cases ha
        · rename_i d hd
          cases ha
          have hroot : d.commitType.root = true := by
            have := List.mem_of_getLast? hr
            rw [List.mem_filter] at this
            have h2 := this.2
            unfold Syntax.commitOf at h2
            rw [hd] at h2
            exact h2
          have hfine : NameFine Q d := by
            rcases h3 _ d hd with h4 | h4
            · exact h4
            · rw [hroot] at h4
              exact absurd h4.2.2 (by simp)
          have hnc : d.kind.isChar = false := by
            cases hc : d.kind.isChar with
            | false => rfl
            | true =>
              rw [commitType_eq, hc] at hroot
              cases hroot
          have hname : Q d.name := by
            rcases hfine with h | h
            · rw [hnc] at h; cases h
            · exact h
          refine Heap.Each.append ?_ ?_
          · unfold applyToRoot
            simp only
            refine h3.update _ fun e _ => ?_
            refine .inl (NameFine.setCommitType (NameFine.setCommitType ?_ _) _)
            exact .inr (hq d.name hname)
          · intro e he
            rw [List.mem_singleton.1 he]
            exact .inl (.inr hname)
    intro p d hd
    obtain ⟨e, i, h1, rfl⟩ := hreg.same p d hd
    exact h4e p e h1
  · cases h
    exact hpre.mono fun d hd => .inl hd

theorem init_each {cs : List Call} {s s' : Syntax} (h : Made cs s) (hq : ∀ n, Q n → Q (patchName [n, runes "wsroot"]))
    (hc : ∀ c ∈ cs, Q c.name) (hi : s.Init = .ok (s', none)) : s'.heap.Each (NameFineWs Q) := by
  have hs : SInv s := (made_called h).built.inv
  have he := made_each h hc
  rw [Syntax.Init_eq, if_neg (by simp [hs.initFailed]), if_neg (by simp [hs.initialized])] at hi
  cases hroot : s.root with
  | none => rw [hroot] at hi; simp at hi
  | some root =>
    rw [hroot] at hi
    simp only at hi
    cases hd : s.heap[root]? with
    | none => rw [hd] at hi; cases hi
    | some d =>
      rw [hd] at hi
      simp only at hi
      split at hi
      · simp at hi
      · obtain ⟨⟨s1, r1⟩, hp, hi⟩ := Res.bind_eq_ok hi
        have hprep := (prepare_weak hs.weak hroot).of_eq hp
        have hspec := (finishInit_spec hprep.1).of_eq hi
        simp only at hspec
        exact (prepare_each hq he hp).sk hspec.sk

end

/-! ### The statements -/

theorem generateAll_forall {P : Stmt → Prop} {rec : Ptr → List Name → Res (List Stmt × List Name)}
    (hrec : ∀ p done ss done', rec p done = .ok (ss, done') → ∀ st ∈ ss, P st) :
    ∀ (ps : List Ptr) (done : List Name) (ss : List Stmt) (done' : List Name), generateAll rec ps done = .ok (ss, done') →
      ∀ st ∈ ss, P st
  | [], done, ss, done', h => by
    cases h
    simp
  | p :: ps, done, ss, done', h => by
    unfold generateAll at h
    obtain ⟨⟨s1, d1⟩, h1, h⟩ := Res.bind_eq_ok h
    simp only at h
    obtain ⟨⟨s2, d2⟩, h2, h⟩ := Res.bind_eq_ok h
    simp only at h
    cases h
    intro st hst
    rcases List.mem_append.1 hst with hst | hst
    · exact hrec _ _ _ _ h1 st hst
    · exact generateAll_forall hrec ps _ _ _ h2 st hst

theorem generate_forall {P : Stmt → Prop} {env : Env} {key : PDef → Name} {lit : PDef → Lit}
    (hd : ∀ d ∈ env.defs, P (.declare d.id (lit d))) (ha : ∀ n f refs, P (.assign n f refs)) :
    ∀ (n : Nat) (p : Ptr) (done : List Name) (ss : List Stmt) (done' : List Name), generate env key lit n p done = .ok (ss, done') →
      ∀ st ∈ ss, P st
  | 0, _, _, _, _, h => by cases h
  | n + 1, p, done, ss, done', h => by
    unfold generate at h
    cases hp : env.defs[p]? with
    | none => rw [hp] at h; cases h
    | some d =>
      rw [hp] at h
      simp only at h
      have hm := hd d (List.mem_of_getElem? hp)
      have go : ∀ (field : Field) (children : List Ptr),
          (if done.contains (key d) then .ok ([], done)
            else
              (generateAll (generate env key lit n) children (key d :: done)).bind fun (ss, done) =>
                if children.isEmpty then .ok (.declare d.id (lit d) :: ss, done)
                else
                  (nodeIDs env children).bind fun ids =>
                    .ok (.declare d.id (lit d) :: ss ++ [.assign d.id field ids], done)) = .ok (ss, done') → ∀ st ∈ ss, P st := by
        intro field children h
        split at h
        · cases h
          simp
        · obtain ⟨⟨s1, d1⟩, h1, h⟩ := Res.bind_eq_ok h
          have ih := generateAll_forall (generate_forall hd ha n) _ _ _ _ h1
          simp only at h
          split at h
          · cases h
            intro st hst
            rcases List.mem_cons.1 hst with rfl | hst
            · exact hm
            · exact ih st hst
          · obtain ⟨ids, _, h⟩ := Res.bind_eq_ok h
            cases h
            intro st hst
            rcases List.mem_append.1 hst with hst | hst
            · rcases List.mem_cons.1 hst with rfl | hst
              · exact hm
              · exact ih st hst
            · rw [List.mem_singleton.1 hst]
              exact ha _ _ _
      cases hk : d.kind with
      | char neg cs rs =>
        rw [hk] at h
        cases h
        intro st hst
        rw [List.mem_singleton.1 hst]
        exact hm
      | choice options =>
        rw [hk] at h
        exact go .options options h
      | seq items ranges allChars =>
        rw [hk] at h
        exact go .items items h

theorem generateProgram_forall {P P' : Stmt → Prop} {env : Env} {root : Ptr} {p : Program}
    (hd : ∀ d ∈ env.defs, P (.declare d.id d.parserLit) ∧ P' (.declare d.id d.builderLit))
    (ha : ∀ n f refs, P (.assign n f refs) ∧ P' (.assign n f refs)) (h : generateProgram env root = .ok p) :
    (∀ st ∈ p.parsers, P st) ∧ (∀ st ∈ p.builders, P' st) := by
  unfold generateProgram at h
  simp only at h
  obtain ⟨⟨ps, d1⟩, h1, h⟩ := Res.bind_eq_ok h
  simp only at h
  obtain ⟨⟨bs, d2⟩, h2, h⟩ := Res.bind_eq_ok h
  simp only at h
  obtain ⟨ks, _, h⟩ := Res.bind_eq_ok h
  obtain ⟨rs, _, h⟩ := Res.bind_eq_ok h
  cases h
  exact ⟨generateAll_forall (generate_forall (fun d hm => (hd d hm).1) (fun n f refs => (ha n f refs).1) _) _ _ _ _ h1,
    generate_forall (fun d hm => (hd d hm).2) (fun n f refs => (ha n f refs).2) _ _ _ _ _ h2⟩

theorem printed_parserLit (d : PDef) : PrintedLit false d.parserLit := by
  unfold PDef.parserLit
  cases d.kind with
  | char neg cs rs => exact ⟨fun _ => rfl, fun _ _ _ _ => ⟨rfl, rfl, rfl, fun h => absurd h (by simp)⟩⟩
  | choice os =>
    refine ⟨fun h => ?_, fun _ _ _ h => by cases h⟩
    simp only [printsName, Bool.false_eq_true, if_false] at h
    simp [h]
  | seq items ranges allChars =>
    refine ⟨fun h => ?_, fun _ _ _ h => by cases h⟩
    simp only [printsName, Bool.false_eq_true, if_false] at h
    simp [h]

theorem printed_builderLit (d : PDef) : PrintedLit true d.builderLit := by
  unfold PDef.builderLit
  cases d.kind with
  | char neg cs rs =>
    refine ⟨fun _ => rfl, fun _ _ _ h => ?_⟩
    cases h
    exact ⟨rfl, rfl, rfl, fun _ => ⟨rfl, rfl, rfl, rfl⟩⟩
  | choice os =>
    refine ⟨fun h => ?_, fun _ _ _ h => by cases h⟩
    simp only [printsName, if_true, Bool.not_eq_false'] at h
    simp [h]
  | seq items ranges allChars =>
    refine ⟨fun h => ?_, fun _ _ _ h => by cases h⟩
    simp only [printsName, if_true, Bool.not_eq_false'] at h
    simp [h]

theorem quotable_nil : Quotable [] := by simp [Quotable]

theorem quotable_lits {d : Def} (h : NameFineWs Quotable d) :
    Quotable d.toPDef.parserLit.name ∧ Quotable d.toPDef.builderLit.name := by
  unfold PDef.parserLit PDef.builderLit Def.toPDef
  rcases h with (h | h) | ⟨h1, h2, _⟩
  · cases hk : d.kind <;> rw [hk] at h
    · exact ⟨quotable_nil, quotable_nil⟩
    · cases h
    · cases h
  · cases hk : d.kind <;> constructor <;> simp only <;> (try split) <;> first | exact quotable_nil | exact h
  · cases hk : d.kind <;> simp only [h1, h2, Bool.false_eq_true, if_false, if_true] <;> exact ⟨quotable_nil, quotable_nil⟩

theorem quotable_wsroot (n : Name) (h : Quotable n) : Quotable (patchName [n, runes "wsroot"]) := by
  have e : patchName [n, runes "wsroot"] = n ++ runes ":wsroot" := by
    simp [patchName, List.intercalate, runes, colon]
  rw [e]
  intro c hc
  rcases List.mem_append.1 hc with hc | hc
  · exact h c hc
  · have : ∀ c ∈ runes ":wsroot", c ≠ 34 ∧ c ≠ 10 ∧ c ≠ 92 ∧ c ≠ 0 ∧ c ≠ 0xFEFF := by decide
    exact this c hc

/-- All the statements can be printed and read. -/
theorem generate_printable {cs : List Call} {s s' : Syntax} {root : Ptr} {p : Program} (h : Made cs s)
    (hc : ∀ c ∈ cs, Quotable c.name) (hi : s.Init = .ok (s', none)) (hp : generateProgram s'.env root = .ok p) :
    (∀ st ∈ p.parsers, QuotableStmt st ∧ PrintedStmt false st) ∧ (∀ st ∈ p.builders, QuotableStmt st ∧ PrintedStmt true st) := by
  have he := init_each h quotable_wsroot hc hi
  refine generateProgram_forall (fun d hd => ?_) (fun _ _ _ => ⟨⟨trivial, trivial⟩, trivial, trivial⟩) hp
  obtain ⟨e, he1, rfl⟩ := List.mem_map.1 hd
  obtain ⟨i, hi⟩ := List.getElem?_of_mem he1
  have := quotable_lits (he i e hi)
  exact ⟨⟨this.1, printed_parserLit _⟩, this.2, printed_builderLit _⟩

end Treerack
