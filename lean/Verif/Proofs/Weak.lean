import Verif.Proofs.WsPrepare
import Verif.Proofs.Calls
import Verif.Proofs.Registers

/-
What holds after any sequence of API calls, successful or not.
-/

namespace Treerack
open Spec

def Def.IsRaw (d : Def) : Prop :=
  d.validated = false ∧ d.initialized = false ∧ d.gens = [] ∧ d.kind.Raw

theorem Def.IsRaw.setCommitType {d : Def} (h : d.IsRaw) (ct : Commit) : (d.setCommitType ct).IsRaw := by
  unfold Def.setCommitType; split <;> exact h

theorem RawDef.isRaw {d : Def} (h : RawDef d) : d.IsRaw := by
  obtain ⟨h1, h2, h3, h4, -⟩ := h.raw
  exact ⟨h1, h2, h3, h4⟩

def Heap.AllRaw (h : Heap) : Prop := ∀ (p : Ptr) d, h[p]? = some d → d.IsRaw

theorem Heap.AllRaw.update {h : Heap} (hr : h.AllRaw) (p : Ptr) {f : Def → Def}
    (hf : ∀ d : Def, d.IsRaw → (f d).IsRaw) : (h.update p f).AllRaw := by
  intro q d hd
  rw [Heap.getElem?_update] at hd
  split at hd
  · obtain ⟨e, h1, rfl⟩ := Option.map_eq_some_iff.1 hd
    exact hf e (hr q e h1)
  · exact hr q d hd

theorem Heap.AllRaw.append {h : Heap} (hr : h.AllRaw) {d : Def} (hd : d.IsRaw) :
    Heap.AllRaw (h ++ [d]) := by
  intro q e he
  rw [List.getElem?_append] at he
  split at he
  · exact hr q e he
  · have := List.mem_of_getElem? he
    rw [List.mem_singleton] at this
    subst this; exact hd

/-- The keyword flags are the same. -/
def Heap.SameKw (h' h : Heap) : Prop := ∀ (p : Ptr) d', h'[p]? = some d' → ∃ d, h[p]? = some d ∧
  d'.commitType.keyword = d.commitType.keyword ∧ d'.commitType.noKeyword = d.commitType.noKeyword

theorem Heap.SameKw.refl (h : Heap) : h.SameKw h := fun _ d hd => ⟨d, hd, rfl, rfl⟩

theorem Heap.SameKw.update {h h0 : Heap} (hs : h.SameKw h0) (p : Ptr) {f : Def → Def}
    (hf : ∀ d : Def, (f d).commitType.keyword = d.commitType.keyword ∧
      (f d).commitType.noKeyword = d.commitType.noKeyword) : (h.update p f).SameKw h0 := by
  intro q d hd
  rw [Heap.getElem?_update] at hd
  split at hd
  · obtain ⟨e, h1, rfl⟩ := Option.map_eq_some_iff.1 hd
    obtain ⟨e0, h2, h3, h4⟩ := hs q e h1
    exact ⟨e0, h2, (hf e).1.trans h3, (hf e).2.trans h4⟩
  · exact hs q d hd

theorem withRoot_kw (b : Bool) (d : Def) :
    (d.setCommitType { d.commitType with root := b }).commitType.keyword = d.commitType.keyword ∧
    (d.setCommitType { d.commitType with root := b }).commitType.noKeyword = d.commitType.noKeyword := by
  unfold Def.setCommitType Def.commitType
  cases hk : d.kind <;> simp [hk]

theorem applyRoot_weak {s : Syntax} (p : Ptr) (hraw : s.heap.AllRaw) :
    let s' := (s.applyRoot p).1
    s'.heap.AllRaw ∧ s'.heap.length = s.heap.length ∧ s'.registry = s.registry ∧
    s'.keywords = s.keywords ∧ (s'.root = s.root ∨ s'.root = some p) ∧
    s'.initialized = s.initialized ∧ s'.initFailed = s.initFailed ∧ s'.heap.SameKw s.heap := by
  simp only
  unfold Syntax.applyRoot
  rcases s with ⟨heap, registry, initialized, initFailed, explicitRoot, keywords, root⟩
  simp only at hraw ⊢
  have hset : ∀ (b : Bool) (d : Def), d.IsRaw →
      (d.setCommitType { d.commitType with root := b }).IsRaw := fun b d h => h.setCommitType _
  generalize (Syntax.commitOf heap p).root = ct
  cases ct <;> cases explicitRoot <;> cases root <;>
    simp [Heap.length_update, hraw, hraw.update p (hset true), Heap.SameKw.refl,
      (Heap.SameKw.refl heap).update p (withRoot_kw true)] <;>
    first
    | exact ⟨(hraw.update _ (hset false)).update p (hset true),
        ((Heap.SameKw.refl heap).update _ (withRoot_kw false)).update p (withRoot_kw true)⟩
    | trivial

theorem register_weak {s : Syntax} {d : Def} (hs : WeakInv s) (hd : d.IsRaw) :
    WeakInv (s.register d).1 ∧ (s.register d).1.initialized = s.initialized ∧
      (s.register d).1.initFailed = s.initFailed := by
  unfold Syntax.register
  by_cases hi : s.initialized = true
  · rw [if_pos hi]; exact ⟨hs, rfl, rfl⟩
  · rw [if_neg hi]
    simp only
    have hraw0 : Heap.AllRaw (s.heap ++ [d]) := Heap.AllRaw.append hs.raw hd
    have hlen0 : (s.heap ++ [d]).length = s.heap.length + 1 := by simp
    have hkw0 : ∀ (k : Ptr) e, k ∈ s.keywords → (s.heap ++ [d])[k]? = some e →
        e.commitType.noKeyword = false := by
      intro k e hk he
      rw [List.getElem?_append_left (hs.keywords_lt k hk)] at he
      exact hs.kwflags k e hk he
    split
    · exact ⟨⟨hraw0, hs.nodup, fun p hp => by simp only [hlen0]; exact Nat.lt_succ_of_lt (hs.defs_lt p hp),
        hs.lookup_mem, fun k hk => by simp only [hlen0]; exact Nat.lt_succ_of_lt (hs.keywords_lt k hk),
        fun r hr => by simp only [hlen0]; exact Nat.lt_succ_of_lt (hs.root_lt r hr), hkw0⟩, rfl, rfl⟩
    · rename_i hcompat
      have hap := applyRoot_weak (s := { s with heap := s.heap ++ [d] }) s.heap.length hraw0
      generalize hx : Syntax.applyRoot { s with heap := s.heap ++ [d] } s.heap.length = x at hap
      obtain ⟨s1, e⟩ := x
      obtain ⟨a1, a2, a3, a4, a5, a6, a7, a8⟩ := hap
      simp only [hlen0] at a1 a2 a3 a4 a5 a6 a7 a8
      have hkw1 : ∀ (k : Ptr) e, k ∈ s.keywords → s1.heap[k]? = some e →
          e.commitType.noKeyword = false := by
        intro k e hk he
        obtain ⟨e0, h1, -, h2⟩ := a8 k e he
        rw [h2]; exact hkw0 k e0 hk h1
      have hroot1 : ∀ r, s1.root = some r → r < s1.heap.length := by
        intro r hr
        rw [a2]
        rcases a5 with a5 | a5
        · rw [a5] at hr; exact Nat.lt_succ_of_lt (hs.root_lt r hr)
        · rw [a5] at hr; cases hr; exact Nat.lt_succ_self _
      cases e with
      | some e =>
        refine ⟨⟨a1, by rw [a3]; exact hs.nodup, ?_, by rw [a3]; exact hs.lookup_mem, ?_, hroot1,
          by rw [a4]; exact hkw1⟩, a6, a7⟩
        · intro p hp; rw [a3] at hp; rw [a2]; exact Nat.lt_succ_of_lt (hs.defs_lt p hp)
        · intro p hp; rw [a4] at hp; rw [a2]; exact Nat.lt_succ_of_lt (hs.keywords_lt p hp)
      | none =>
        simp only
        generalize hs2 : (if (Syntax.commitOf s1.heap s.heap.length).keyword = true then
          { s1 with keywords := s1.keywords ++ [s.heap.length] } else s1) = s2
        have b1 : s2.heap = s1.heap := by rw [← hs2]; split <;> rfl
        have b2 : s2.registry = s.registry := by rw [← hs2, ← a3]; split <;> rfl
        have b3 : s2.root = s1.root := by rw [← hs2]; split <;> rfl
        have b4 : s2.initialized = s.initialized := by rw [← hs2, ← a6]; split <;> rfl
        have b5 : s2.initFailed = s.initFailed := by rw [← hs2, ← a7]; split <;> rfl
        have b6 : ∀ k ∈ s2.keywords, k < s1.heap.length := by
          intro k hk
          rw [a2]
          rw [← hs2] at hk
          split at hk
          · simp only [a4, List.mem_append, List.mem_singleton] at hk
            rcases hk with hk | rfl
            · exact Nat.lt_succ_of_lt (hs.keywords_lt k hk)
            · exact Nat.lt_succ_self _
          · rw [a4] at hk; exact Nat.lt_succ_of_lt (hs.keywords_lt k hk)
        have b7 : ∀ (k : Ptr) e, k ∈ s2.keywords → s1.heap[k]? = some e →
            e.commitType.noKeyword = false := by
          intro k e hk he
          rw [← hs2] at hk
          split at hk
          · rename_i hkw
            simp only [a4, List.mem_append, List.mem_singleton] at hk
            rcases hk with hk | rfl
            · exact hkw1 k e hk he
            · simp only [Syntax.commitOf, he] at hkw
              obtain ⟨e0, h1, h2, h3⟩ := a8 _ e he
              simp at h1
              subst h1
              rw [h3]
              rw [h2] at hkw
              cases hn : d.commitType.noKeyword
              · rfl
              · simp [Commit.incompatible, hkw, hn] at hcompat
          · rw [a4] at hk; exact hkw1 k e hk he
        unfold Registry.setDefinition
        rw [b1]
        have base : WeakInv { s2 with registry := s2.registry, heap := s1.heap } := by
          refine ⟨a1, by rw [b2]; exact hs.nodup, ?_, by rw [b2]; exact hs.lookup_mem, b6, ?_, b7⟩
          · intro p hp; simp only [b2] at hp; simp only [a2]; exact Nat.lt_succ_of_lt (hs.defs_lt p hp)
          · intro r hr; simp only [b3] at hr; exact hroot1 r hr
        cases hg : s1.heap[s.heap.length]? with
        | none => exact ⟨base, b4, b5⟩
        | some e =>
          simp only
          split
          · exact ⟨base, b4, b5⟩
          · refine ⟨⟨?_, ?_, ?_, ?_, ?_, ?_, ?_⟩, b4, b5⟩
            · exact a1.update _ (fun d h => h)
            · simp only [b2]
              rw [List.nodup_append]
              refine ⟨hs.nodup, by simp, ?_⟩
              intro a ha b hb
              rw [List.mem_singleton] at hb
              subst hb
              exact Nat.ne_of_lt (hs.defs_lt a ha)
            · intro p hp
              simp only [b2, List.mem_append, List.mem_singleton] at hp
              simp only [Heap.length_update, a2]
              rcases hp with hp | rfl
              · exact Nat.lt_succ_of_lt (hs.defs_lt p hp)
              · exact Nat.lt_succ_self _
            · intro n p h
              simp only [b2, List.mem_append, List.mem_singleton]
              unfold Registry.lookup at h
              simp only [List.lookup_cons, b2] at h
              split at h
              · cases h; exact Or.inr rfl
              · exact Or.inl (hs.lookup_mem n p h)
            · intro k hk
              simp only [Heap.length_update]; exact b6 k hk
            · intro r hr
              simp only [Heap.length_update]
              simp only [b3] at hr
              exact hroot1 r hr
            · intro k e' hk he
              obtain ⟨e0, h1, -, h2⟩ := (Heap.SameKw.refl s1.heap).update s.heap.length
                (f := fun d => { d with id := s2.registry.idSeed + 1 }) (fun d => ⟨rfl, rfl⟩) k e' he
              rw [h2]; exact b7 k e0 hk h1

/-- Calls with any outcome. -/
inductive History : Syntax → Prop
  | empty : History {}
  | call {s : Syntax} (c : Call) : History s → History (s.call c).1
  | define {s : Syntax} (c : Call) : History s → History (s.internalCall c).1
  | init {s s' : Syntax} {e : Option SynErr} : History s → s.Init = .ok (s', e) → History s'
  | parse {s s' : Syntax} {fuel : Nat} {input : List Rune} {rend : Option Nat} {x : Syntax.ParseResult} :
      History s → s.Parse fuel input rend = .ok (s', x) → History s'
  | read {s s' : Syntax} {document : Res (Except Err Node)} {e : Option SynErr} :
      History s → s.ReadSyntax document = .ok (s', e) → History s'

/-- What the calls preserve. -/
def Keeps (s s' : Syntax) : Prop :=
  s'.initialized = s.initialized ∧ s'.initFailed = s.initFailed ∧ (WeakInv s → WeakInv s') ∧
  (s.initialized = true → s' = s)

theorem Keeps.refl (s : Syntax) : Keeps s s := ⟨rfl, rfl, id, fun _ => rfl⟩

theorem Keeps.trans {a b c : Syntax} (h1 : Keeps a b) (h2 : Keeps b c) : Keeps a c :=
  ⟨h2.1.trans h1.1, h2.2.1.trans h1.2.1, fun h => h2.2.2.1 (h1.2.2.1 h),
    fun h => by rw [h2.2.2.2 (by rw [h1.1]; exact h), h1.2.2.2 h]⟩

theorem register_flags (s : Syntax) (d : Def) : (s.register d).1.initialized = s.initialized ∧
    (s.register d).1.initFailed = s.initFailed := by
  unfold Syntax.register
  split
  · exact ⟨rfl, rfl⟩
  · simp only
    split
    · exact ⟨rfl, rfl⟩
    · have hap : ∀ (t : Syntax) (p : Ptr), (t.applyRoot p).1.initialized = t.initialized ∧
          (t.applyRoot p).1.initFailed = t.initFailed := by
        intro t p
        unfold Syntax.applyRoot
        rcases t with ⟨heap, registry, initialized, initFailed, explicitRoot, keywords, root⟩
        simp only
        generalize (Syntax.commitOf heap p).root = ct
        cases ct <;> cases explicitRoot <;> cases root <;> simp
      have := hap { s with heap := s.heap ++ [d] } s.heap.length
      split
      · rename_i h; rw [h] at this; exact this
      · rename_i s1 h
        rw [h] at this
        simp only at this ⊢
        split
        · exact this
        · exact this

theorem register_keeps {s : Syntax} {d : Def} (hd : RawDef d) : Keeps s (s.register d).1 :=
  ⟨(register_flags s d).1, (register_flags s d).2, fun h => (register_weak h hd.isRaw).1, fun h => by
    unfold Syntax.register; rw [if_pos h]⟩

theorem keeps_registers : Registers Keeps := ⟨.refl, fun h1 h2 => h1.trans h2, fun _ _ hd => register_keeps hd⟩

theorem class_keeps (s : Syntax) (n : Name) (ct : Commit) (neg : Bool) (cs : List Rune)
    (rs : List (Rune × Rune)) : Keeps s (s.class_ n ct neg cs rs).1 := by
  unfold Syntax.class_
  simp only
  have h1 := register_keeps (s := s) (.char (childName n 0) neg cs rs)
  generalize s.register (newChar (childName n 0) neg cs rs) = x at h1
  obtain ⟨s1, e⟩ := x
  cases e with
  | some e => exact h1
  | none => exact h1.trans (register_keeps (.seq ..))

theorem charSequenceLoop_keeps (n : Name) : ∀ (cs : List Rune) (i : Nat) (refs : List Name) (s : Syntax),
    Keeps s (Syntax.charSequenceLoop n i cs refs s).1
  | [], _, _, s => .refl s
  | c :: cs, i, refs, s => by
    unfold Syntax.charSequenceLoop
    simp only
    have h1 := register_keeps (s := s) (.char (childName n i) false [c] [])
    generalize s.register (newChar (childName n i) false [c] []) = x at h1
    obtain ⟨s1, e⟩ := x
    cases e with
    | some e => exact h1
    | none => exact h1.trans (charSequenceLoop_keeps n cs (i + 1) _ s1)

theorem charSequence_keeps (s : Syntax) (n : Name) (ct : Commit) (cs : List Rune) :
    Keeps s (s.charSequence_ n ct cs).1 := by
  unfold Syntax.charSequence_
  have h1 := charSequenceLoop_keeps n cs 0 [] s
  generalize Syntax.charSequenceLoop n 0 cs [] s = x at h1
  obtain ⟨s1, e, refs⟩ := x
  cases e with
  | some e => exact h1
  | none => exact h1.trans (register_keeps (.seq ..))

theorem call_keeps (s : Syntax) (c : Call) : Keeps s (s.call c).1 := by
  cases c with
  | anyChar n ct =>
    simp only [Syntax.call, Syntax.AnyChar]
    split
    · exact .refl s
    · exact class_keeps ..
  | class_ n ct neg cs rs =>
    simp only [Syntax.call, Syntax.Class]
    split
    · exact .refl s
    · exact class_keeps ..
  | charSequence n ct cs =>
    simp only [Syntax.call, Syntax.CharSequence]
    split
    · exact .refl s
    · exact charSequence_keeps ..
  | sequence n ct items =>
    simp only [Syntax.call, Syntax.Sequence]
    split
    · exact .refl s
    · exact register_keeps (.seq ..)
  | choice n ct os =>
    simp only [Syntax.call, Syntax.Choice]
    split
    · exact .refl s
    · exact register_keeps (.choice ..)

theorem WeakInv.empty : WeakInv {} := SInv.empty.weak

/-- An initialized syntax. -/
structure Linkable (s : Syntax) : Prop where
  prep : ∃ s0 root, PrepBase s0 root ∧ InitOK s0 root s ∧ s.root = some root ∧
    ∀ (k : Ptr) d, k ∈ s0.keywords → s0.heap[k]? = some d → d.commitType.noKeyword = false

/-- What holds after any calls. -/
structure HistInv (s : Syntax) : Prop where
  weak : s.initialized = false → s.initFailed = false → WeakInv s
  init : s.initialized = true → Linkable s

theorem finishInit_error {s s' : Syntax} {root : Ptr} {e : SynErr}
    (h : s.finishInit root = .ok (s', some e)) : s'.initFailed = true ∧ s'.initialized = s.initialized := by
  unfold Syntax.finishInit at h
  simp only at h
  obtain ⟨⟨h1, e1⟩, -, h⟩ := Res.bind_eq_ok h
  cases e1 with
  | some e1 => simp only [Res.ok.injEq, Prod.mk.injEq] at h; rw [← h.1]; exact ⟨rfl, rfl⟩
  | none =>
    simp only at h
    obtain ⟨h2, -, h⟩ := Res.bind_eq_ok h
    simp at h

theorem Init_weak {s : Syntax} (hs : HistInv s) :
    s.Init.Spec (s.root ≠ none) False (fun x => HistInv x.1 ∧
      (x.2 = none → x.1.initialized = true ∧ x.1.initFailed = false)) := by
  rw [Syntax.Init_eq]
  by_cases hf : s.initFailed = true
  · rw [if_pos hf]
    exact ⟨hs, fun h => by simp at h⟩
  · rw [if_neg hf]
    by_cases hi : s.initialized = true
    · rw [if_pos hi]
      exact ⟨hs, fun _ => ⟨hi, by simpa using hf⟩⟩
    · rw [if_neg hi]
      have hw := hs.weak (by simpa using hi) (by simpa using hf)
      cases hr : s.root with
      | none => exact ⟨hs, fun h => by simp at h⟩
      | some root =>
        simp only
        cases hd : s.heap[root]? with
        | none => simp [Res.Spec]
        | some d =>
          simp only
          split
          · exact ⟨hs, fun h => by simp at h⟩
          · refine Res.Spec.bind ((prepare_weak hw hr).mono (fun _ => by simp) id (fun _ h => h)) ?_
            rintro ⟨s1, r1⟩ ⟨h1, h2, h3, h4, h5⟩
            simp only at h1 h2 h3 h4 h5 ⊢
            have hfi := finishInit_spec h1
            generalize hx' : s1.finishInit r1 = x at hfi
            cases x with
            | panic => exact hfi.elim
            | oof => exact hfi.elim
            | ok x =>
            obtain ⟨s2, e⟩ := x
            cases e with
            | some e =>
              obtain ⟨k1, k2⟩ := finishInit_error hx'
              simp only [Res.Spec.ok_iff]
              refine ⟨⟨fun _ h => by simp_all, fun h => by simp_all⟩, fun h => by simp at h⟩
            | none =>
              have hx : InitOK s1 r1 s2 := hfi
              simp only [Res.Spec.ok_iff]
              refine ⟨⟨?_, ?_⟩, ?_⟩
              · intro h
                have := hx.same
                rw [this] at h; simp at h
              · intro h
                exact ⟨s1, r1, h1, hx, by rw [hx.same]; exact h2, h5⟩
              · intro _
                rw [hx.same]
                exact ⟨rfl, by simp only; rw [h3]; simpa using hf⟩

theorem Parse_state {s s' : Syntax} {fuel : Nat} {input : List Rune} {rend : Option Nat}
    {x : Syntax.ParseResult} (h : s.Parse fuel input rend = .ok (s', x)) : ∃ e, s.Init = .ok (s', e) := by
  unfold Syntax.Parse at h
  obtain ⟨⟨s1, e⟩, h1, h⟩ := Res.bind_eq_ok h
  refine ⟨e, ?_⟩
  cases e with
  | some e => simp only [Res.ok.injEq, Prod.mk.injEq] at h; rw [← h.1]; exact h1
  | none =>
    simp only at h
    split at h
    · cases h
    · obtain ⟨y, h2, h⟩ := Res.bind_eq_ok h
      cases y <;> simp only [Res.ok.injEq, Prod.mk.injEq] at h <;> rw [← h.1] <;> exact h1

theorem History.inv {s : Syntax} (h : History s) : HistInv s := by
  induction h with
  | empty => exact ⟨fun _ _ => .empty, fun h => by simp at h⟩
  | call c h ih =>
    rename_i s
    obtain ⟨k1, k2, k3, k4⟩ := call_keeps s c
    exact ⟨fun a b => k3 (ih.weak (by rw [← k1]; exact a) (by rw [← k2]; exact b)), fun a => by
      rw [k1] at a; rw [k4 a]; exact ih.init a⟩
  | define c h ih =>
    rename_i s
    obtain ⟨k1, k2, k3, k4⟩ := keeps_registers.internalCall s c
    exact ⟨fun a b => k3 (ih.weak (by rw [← k1]; exact a) (by rw [← k2]; exact b)), fun a => by
      rw [k1] at a; rw [k4 a]; exact ih.init a⟩
  | init h hi ih => exact ((Init_weak ih).of_eq hi).1
  | parse h hp ih =>
    obtain ⟨e, hi⟩ := Parse_state hp
    exact ((Init_weak ih).of_eq hi).1
  | read h hr ih =>
    obtain ⟨k1, k2, k3, k4⟩ := keeps_registers.readSyntax hr
    exact ⟨fun a b => k3 (ih.weak (by rw [← k1]; exact a) (by rw [← k2]; exact b)), fun a => by
      rw [k1] at a; rw [k4 a]; exact ih.init a⟩

end Treerack
