import Verif.Proofs.Calls
import Verif.Proofs.WsLang

/-
The registered definitions after a list of calls, in order, without their ids, root flags and user defined marks.
-/

namespace Treerack
open Spec

def Def.plain (d : Def) : Def :=
  { d with id := 0, commit := if d.kind.isChar then d.commit else { d.commit with root := false, userDefined := true } }

theorem plain_withRoot (b : Bool) (d : Def) : (d.withRoot b).plain = d.plain := by
  unfold Def.plain Def.withRoot Def.setCommitType Def.commitType
  cases hk : d.kind <;> simp [hk, DKind.isChar]

theorem plain_id (d : Def) (i : Nat) : ({ d with id := i } : Def).plain = d.plain := rfl

theorem plain_name (d : Def) : d.plain.name = d.name := rfl
theorem plain_kind (d : Def) : d.plain.kind = d.kind := rfl

theorem plain_commitType (d : Def) : d.plain.commitType =
    { d.commitType with root := false, userDefined := d.commitType.userDefined || !d.kind.isChar } := by
  unfold Def.plain Def.commitType
  cases hk : d.kind <;> simp [hk, DKind.isChar]

def Syntax.profile (s : Syntax) : List (Option Def) :=
  s.registry.definitions.map fun p => (s.heap[p]?).map Def.plain

theorem Registered.profile {s s' : Syntax} {d : Def} (hs : SInv s) (hr : Registered s d s') :
    s'.profile = s.profile ++ [some d.plain] := by
  unfold Syntax.profile
  rw [hr.registry]
  simp only [List.map_append, List.map_cons, List.map_nil]
  congr 1
  · apply List.map_congr_left
    intro p hp
    rw [hr.old p (hs.mem_lt hp)]
    cases s.heap[p]? with
    | none => rfl
    | some e =>
      simp only [Option.map_some, Option.some.injEq]
      split
      · exact plain_withRoot ..
      · rfl
  · rw [hr.new]
    simp only [Option.map_some, List.cons.injEq, Option.some.injEq, and_true]
    rw [plain_id]
    split
    · exact plain_withRoot ..
    · rfl

/-- The flags of the definition made by a call. -/
def Spec.Call.flags (c : Call) : Commit := { c.commit with root := false, userDefined := true }

/-- The registered definitions of a call. -/
def Spec.Call.raw (c : Call) : List Def :=
  match c with
  | .anyChar n _ => [newChar (childName n 0) true [] [], newSequence n c.flags [{ name := childName n 0 }]]
  | .class_ n _ neg cs rs => [newChar (childName n 0) neg cs rs, newSequence n c.flags [{ name := childName n 0 }]]
  | .charSequence n _ cs =>
    cs.zipIdx.map (fun x => newChar (childName n x.2) false [x.1] []) ++
    [newSequence n { c.flags with noWhitespace := true } ((List.range cs.length).map fun i => { name := childName n i })]
  | .sequence n _ items => [newSequence n c.flags items]
  | .choice n _ os => [newChoice n c.flags os]

theorem register_profile {s s' : Syntax} {d : Def} (hb : Built s) (hreg : s.register d = (s', none)) :
    s'.profile = s.profile ++ [some d.plain] :=
  (register_spec hb.inv.root_lt hreg).profile hb.inv

theorem class_profile {s s' : Syntax} {name : Name} {ct : Commit} {neg : Bool} {cs : List Rune}
    {rs : List (Rune × Rune)} (hb : Built s) (h : s.class_ name ct neg cs rs = (s', none)) :
    s'.profile = s.profile ++ [some (newChar (childName name 0) neg cs rs),
      some (newSequence name ct [{ name := childName name 0 }]).plain] := by
  unfold Syntax.class_ at h
  simp only at h
  split at h
  · simp at h
  · rename_i s1 hreg
    have h1 := Registered.addsChars hb hreg
    rw [register_profile h1.built h, register_profile hb hreg, List.append_assoc]
    rfl

theorem charSequenceLoop_profile {name : Name} : ∀ (cs : List Rune) (i : Nat) (refs refs' : List Name)
    (s s' : Syntax), Built s → Syntax.charSequenceLoop name i cs refs s = (s', none, refs') →
    s'.profile = s.profile ++ ((cs.zipIdx i).map fun x => some (newChar (childName name x.2) false [x.1] []))
  | [], i, refs, refs', s, s', hb, h => by
    simp only [Syntax.charSequenceLoop, Prod.mk.injEq] at h
    obtain ⟨rfl, -, rfl⟩ := h
    simp
  | c :: cs, i, refs, refs', s, s', hb, h => by
    simp only [Syntax.charSequenceLoop] at h
    split at h
    · simp at h
    · rename_i s1 hreg
      have h1 := Registered.addsChars hb hreg
      rw [charSequenceLoop_profile cs (i + 1) _ _ _ _ h1.built h, register_profile hb hreg]
      simp only [List.zipIdx_cons, List.map_cons, List.append_assoc, List.singleton_append]
      rfl

theorem charSequence_profile {s s' : Syntax} {name : Name} {ct : Commit} {cs : List Rune} (hb : Built s)
    (h : s.charSequence_ name ct cs = (s', none)) :
    s'.profile = s.profile ++ (cs.zipIdx.map (fun x => some (newChar (childName name x.2) false [x.1] [])) ++
      [some (newSequence name { ct with noWhitespace := true }
        ((List.range cs.length).map fun i => { name := childName name i })).plain]) := by
  unfold Syntax.charSequence_ at h
  split at h
  · simp at h
  · rename_i s1 refs hl
    obtain ⟨h1, h2⟩ := charSequenceLoop_spec cs 0 _ _ _ _ hb hl
    rw [register_profile h1.built h, charSequenceLoop_profile _ _ _ _ _ _ hb hl, List.append_assoc, h2]
    simp [List.range_eq_range', Function.comp_def]

/-- The profile of a successful call. -/
theorem call_profile {s s' : Syntax} {c : Call} (hb : Built s) (h : s.call c = (s', none)) :
    isValidSymbol c.name = true ∧ s'.profile = s.profile ++ c.raw.map some := by
  cases c with
  | anyChar n ct =>
    simp only [Syntax.call, Syntax.AnyChar] at h
    split at h
    · simp at h
    · rename_i hv
      exact ⟨by simpa [Call.name] using hv, (class_profile hb h :)⟩
  | class_ n ct neg cs rs =>
    simp only [Syntax.call, Syntax.Class] at h
    split at h
    · simp at h
    · rename_i hv
      exact ⟨by simpa [Call.name] using hv, (class_profile hb h :)⟩
  | charSequence n ct cs =>
    simp only [Syntax.call, Syntax.CharSequence] at h
    split at h
    · simp at h
    · rename_i hv
      refine ⟨by simpa [Call.name] using hv, ?_⟩
      rw [charSequence_profile hb h]
      simp [Call.raw, Function.comp_def, Def.plain, DKind.isChar, newSequence, Call.flags, Call.commit]
  | sequence n ct items =>
    simp only [Syntax.call, Syntax.Sequence] at h
    split at h
    · simp at h
    · rename_i hv
      exact ⟨by simpa [Call.name] using hv, (register_profile hb h :)⟩
  | choice n ct os =>
    simp only [Syntax.call, Syntax.Choice] at h
    split at h
    · simp at h
    · rename_i hv
      exact ⟨by simpa [Call.name] using hv, (register_profile hb h :)⟩

theorem internalCall_profile {s s' : Syntax} {c : Call} (hb : Built s) (h : s.internalCall c = (s', none)) :
    s'.profile = s.profile ++ c.raw.map some := by
  cases c with
  | anyChar n ct => exact class_profile hb h
  | class_ n ct neg cs rs => exact class_profile hb h
  | charSequence n ct cs =>
    rw [charSequence_profile hb h]
    simp [Call.raw, Function.comp_def, Def.plain, DKind.isChar, newSequence, Call.flags, Call.commit]
  | sequence n ct items => exact register_profile hb h
  | choice n ct os => exact register_profile hb h

/-- The profile of the definitions. -/
theorem made_profile {cs : List Call} {s : Syntax} (h : Made cs s) : s.profile = (cs.flatMap Call.raw).map some := by
  induction h with
  | empty => rfl
  | call h hc ih => rw [(call_profile (made_called h).built hc).2, ih]; simp
  | document h hc ih => rw [internalCall_profile (made_called h).built hc, ih]; simp

/-- The names of accepted calls. -/
theorem calls_valid : ∀ {cs : List Call} {s s' : Syntax}, Built s → s.calls cs = some s' →
    ∀ c ∈ cs, isValidSymbol c.name = true
  | [], s, s', hb, h => by simp
  | c :: cs, s, s', hb, h => by
    simp only [Syntax.calls] at h
    split at h
    · rename_i s1 hc
      obtain ⟨h1, h2⟩ := call_profile hb hc
      have h3 := calls_valid (call_defines hb hc).built h
      intro x hx
      rcases List.mem_cons.1 hx with rfl | hx
      · exact h1
      · exact h3 x hx
    · cases h

section

variable {cs : List Call} {s : Syntax} (h : Made cs s)
include h

/-- A registered definition comes from one of the calls. -/
theorem Syntax.Has.raw {p : Ptr} {d : Def} (hp : s.Has p d) :
    ∃ e, s.heap[p]? = some e ∧ d = e.initRanges ∧ ∃ c ∈ cs, e.plain ∈ c.raw := by
  have hs := (made_called h).built.inv
  obtain ⟨e, h1, rfl⟩ := hs.has_heap hp
  refine ⟨e, h1, rfl, ?_⟩
  have h2 : some e.plain ∈ s.profile := by
    unfold Syntax.profile
    exact List.mem_map.2 ⟨p, hp.1, by rw [h1]; rfl⟩
  rw [made_profile h] at h2
  obtain ⟨e', h3, h4⟩ := List.mem_map.1 h2
  obtain rfl := Option.some.inj h4
  exact List.mem_flatMap.1 h3

theorem raw_has {c : Call} (hc : c ∈ cs) {r : Def} (hr : r ∈ c.raw) :
    ∃ p e, s.heap[p]? = some e ∧ s.Has p e.initRanges ∧ e.plain = r := by
  have hs := (made_called h).built.inv
  have h1 : some r ∈ s.profile := by
    rw [made_profile h]
    exact List.mem_map.2 ⟨r, List.mem_flatMap.2 ⟨c, hc, hr⟩, rfl⟩
  obtain ⟨p, hp, h2⟩ := List.mem_map.1 h1
  obtain ⟨e, h3, h4⟩ := hs.has hp
  rw [h3] at h2
  exact ⟨p, e, h3, h4, Option.some.inj h2⟩

end

end Treerack
