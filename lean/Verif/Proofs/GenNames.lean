import Verif.Proofs.GenCalls
import Verif.Proofs.Root
import Verif.Proofs.Tried
import Verif.Spec.Generated

/-
The names in the generated code: which definitions carry the mark of the definitions made by the user.
-/

namespace Treerack
open Spec

theorem objects_named {c : Call} {ct : Commit} {d : Def} (hd : d ∈ c.objects ct) (hk : d.kind.isChar = false) :
    d.name = c.name ∧ d.commit.userDefined = ct.userDefined := by
  cases c with
  | anyChar n _ =>
    simp only [Call.objects, List.mem_cons, List.not_mem_nil, or_false] at hd
    rcases hd with rfl | rfl
    · cases hk
    · exact ⟨rfl, rfl⟩
  | class_ n _ neg cs rs =>
    simp only [Call.objects, List.mem_cons, List.not_mem_nil, or_false] at hd
    rcases hd with rfl | rfl
    · cases hk
    · exact ⟨rfl, rfl⟩
  | charSequence n _ cs =>
    simp only [Call.objects, List.mem_append, List.mem_map, List.mem_cons, List.not_mem_nil, or_false] at hd
    rcases hd with ⟨x, -, rfl⟩ | rfl
    · cases hk
    · exact ⟨rfl, rfl⟩
  | sequence n _ items =>
    simp only [Call.objects, List.mem_cons, List.not_mem_nil, or_false] at hd
    subst hd; exact ⟨rfl, rfl⟩
  | choice n _ os =>
    simp only [Call.objects, List.mem_cons, List.not_mem_nil, or_false] at hd
    subst hd; exact ⟨rfl, rfl⟩

theorem act_named {a : Act} {d : Def} (hd : d ∈ a.objects) (hk : d.kind.isChar = false) :
    d.name = a.call.name ∧ d.commit.userDefined = a.named := by
  cases a with
  | api c => exact objects_named hd hk
  | document c => exact objects_named hd hk

/-- The mark of the definitions. -/
def Marked (s : Syntax) (as : List Act) : Prop :=
  ∀ n ct k, s.body n = some (ct, k) → k.isChar = false → ∃ a ∈ as, a.call.name = n ∧ ct.userDefined = a.named

theorem registers_marked {as : List Act} {a : Act} (ha : a ∈ as) : ∀ (ds : List Def) {s s' : Syntax}, SInv s → Marked s as →
    (∀ d ∈ ds, RawDef d ∧ (d.kind.isChar = false → d.name = a.call.name ∧ d.commit.userDefined = a.named)) →
    s.registers ds = (s', none) → Marked s' as
  | [], s, s', hs, hm, _, h => by
    simp only [Syntax.registers, Prod.mk.injEq, and_true] at h
    exact h ▸ hm
  | d :: ds, s, s', hs, hm, hd, h => by
    simp only [Syntax.registers] at h
    cases hr : s.register d with
    | mk s1 e =>
      rw [hr] at h
      cases e with
      | some e => simp at h
      | none =>
        have rs := register_spec hs.root_lt hr
        refine registers_marked ha ds (hs.register (hd d (by simp)).1 rs) ?_ (fun d' h' => hd d' (by simp [h'])) h
        intro n ct k hb hk
        rw [rs.body hs] at hb
        split at hb
        · rename_i hn
          simp only [Option.some.injEq, Prod.mk.injEq] at hb
          obtain ⟨h1, h2⟩ := hb
          subst h1 h2
          obtain ⟨h3, h4⟩ := (hd d (by simp)).2 hk
          exact ⟨a, ha, by rw [hn, h3], h4⟩
        · exact hm n ct k hb hk

theorem acts_marked : ∀ (as pre : List Act) {s s' : Syntax}, Syntax.acts {} pre = some s → Marked s pre →
    s.acts as = some s' → Marked s' (pre ++ as)
  | [], pre, s, s', _, hm, h => by
    simp only [Syntax.acts, Option.some.injEq] at h
    simpa [← h] using hm
  | a :: as, pre, s, s', h0, hm, h => by
    simp only [Syntax.acts] at h
    cases hr : s.act a with
    | mk s1 e =>
      rw [hr] at h
      cases e with
      | some e => simp at h
      | none =>
        have hs := (made_called (acts_made h0)).built.inv
        have h1 : Marked s1 (pre ++ [a]) := by
          refine registers_marked (a := a) (by simp) a.objects hs ?_ ?_ (act_ok hr)
          · intro n ct k hb hk
            obtain ⟨b, hb', h⟩ := hm n ct k hb hk
            exact ⟨b, by simp [hb'], h⟩
          · exact fun d hd => ⟨act_raw a d hd, act_named hd⟩
        have := acts_marked as (pre ++ [a]) (acts_snoc h0 hr) h1 h
        simpa using this

theorem marked_of_acts {as : List Act} {s : Syntax} (h : Syntax.acts {} as = some s) : Marked s as := by
  have := acts_marked as [] (s := {}) (s' := s) rfl (by intro n ct k hb; simp [Syntax.body, Syntax.object, Registry.lookup] at hb) h
  simpa using this

/-- Without whitespace the root keeps its mark. -/
theorem root_marked {as : List Act} {s s' : Syntax} (h : Syntax.acts {} as = some s)
    (hw : ¬ s.HasWhitespace) (hi : s.Init = .ok (s', none))
    {root : Ptr} (hr : s'.root = some root) {d : PDef} (hd : s'.env.defs[root]? = some d) :
    ∃ a ∈ as, some a.call.name = rootOf (as.map Act.call) ∧ d.commit.userDefined = a.named ∧ d.pname = a.call.name := by
  have hm := acts_made h
  have C := made_called hm
  have hs := C.built.inv
  obtain ⟨r0, hr0, P, I⟩ := Init_noWs_ok hs hw C.rootNotChar hi
  rw [I.same] at hr
  obtain rfl : r0 = root := Option.some.inj (hr0.symm.trans hr)
  simp only [Syntax.env, List.getElem?_map, Option.map_eq_some_iff] at hd
  obtain ⟨e', he', rfl⟩ := hd
  have hsk := I.sk r0
  rw [he'] at hsk
  simp only [Option.map_some] at hsk
  cases he1 : s.preHeap[r0]? with
  | none => rw [he1] at hsk; cases hsk
  | some e1 =>
    rw [he1] at hsk
    simp only [Option.map_some, Option.some.injEq] at hsk
    have hin := hs.rootIn r0 hr0
    obtain ⟨e, he, hee⟩ := hs.has_heap (p := r0) (d := e1) ⟨hin, he1⟩
    have hn0 : e.kind.isChar = false := C.rootNotChar r0 e hr0 he
    have hname : e'.name = e.name := by rw [Def.sk_name hsk, hee, initRanges_name]
    have hct : e'.commitType = e.commitType := by
      rw [Def.sk_commitType hsk, hee, initRanges_commitType]
    have hbody : s.body e.name = some ({ e.commit with root := false }, e.kind) := by
      unfold Syntax.body Syntax.object
      rw [(hs.lookup e.name r0).2 ⟨hin, e, he, rfl⟩]
      simp [he]
    obtain ⟨a, ha, h1, h2⟩ := marked_of_acts h _ _ _ hbody hn0
    refine ⟨a, ha, ?_, ?_, ?_⟩
    · have hne : as ≠ [] := List.ne_nil_of_mem ha
      obtain ⟨n, hn⟩ := rootOf_some (cs := as.map Act.call) (by simpa using hne)
      have := C.root n hn
      rw [hn, h1, ← this]
      simp [Syntax.rootName, hr0, Syntax.nameAt, he]
    · show e'.commitType.userDefined = _
      rw [hct, commitType_notChar hn0, ← h2]
    · rw [h1]; exact hname

end Treerack
