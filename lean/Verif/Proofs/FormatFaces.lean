import Verif.Proofs.Profile
import Verif.Model.Format

/-
What `format` sees of the definitions: their names, their kinds, and whether they were made by the user.
-/

namespace Treerack
open Spec

abbrev Face := Name × DKind × Bool

def Def.face (d : Def) : Face := (d.name, d.kind, d.commitType.userDefined)

theorem face_withRoot (b : Bool) (d : Def) : (d.withRoot b).face = d.face := by
  unfold Def.face Def.withRoot Def.setCommitType Def.commitType
  cases hk : d.kind <;> simp [hk]

theorem face_id (d : Def) (i : Nat) : ({ d with id := i } : Def).face = d.face := rfl

def Syntax.faceOf (s : Syntax) (n : Name) : Option Face := (s.defined n).map Def.face

/-- The definitions made by a call, as `format` sees them. -/
def Spec.Call.faces (c : Call) : List Face :=
  match c with
  | .anyChar n ct => [(newChar (childName n 0) true [] []).face, (newSequence n ct [{ name := childName n 0 }]).face]
  | .class_ n ct neg cs rs => [(newChar (childName n 0) neg cs rs).face, (newSequence n ct [{ name := childName n 0 }]).face]
  | .charSequence n ct cs =>
    cs.zipIdx.map (fun x => (newChar (childName n x.2) false [x.1] []).face) ++
    [(newSequence n { ct with noWhitespace := true } ((List.range cs.length).map fun i => { name := childName n i })).face]
  | .sequence n ct items => [(newSequence n ct items).face]
  | .choice n ct os => [(newChoice n ct os).face]

/-- The old definitions stay, and the new ones are there. -/
structure Adds (s : Syntax) (fs : List Face) (s' : Syntax) : Prop where
  keeps : ∀ n f, s.faceOf n = some f → s'.faceOf n = some f
  new : ∀ f ∈ fs, s'.faceOf f.1 = some f

theorem Adds.refl (s : Syntax) : Adds s [] s := ⟨fun _ _ => id, by simp⟩

theorem Adds.trans {a b c : Syntax} {l m : List Face} (h1 : Adds a l b) (h2 : Adds b m c) : Adds a (l ++ m) c := by
  refine ⟨fun n f h => h2.keeps n f (h1.keeps n f h), fun f hf => ?_⟩
  rcases List.mem_append.1 hf with hf | hf
  · exact h2.keeps _ _ (h1.new f hf)
  · exact h2.new f hf

theorem Registered.adds {s s' : Syntax} {d : Def} (hs : SInv s) (hr : Registered s d s') : Adds s [d.face] s' := by
  constructor
  · intro n f h
    unfold Syntax.faceOf Syntax.defined at h ⊢
    cases hl : s.registry.lookup n with
    | none => rw [hl] at h; cases h
    | some p =>
      rw [hl] at h
      have hne : n ≠ d.name := by
        rintro rfl
        rw [hr.noDup] at hl; cases hl
      have hp := hs.mem_lt ((hs.lookup n p).1 hl).1
      have hl' : s'.registry.lookup n = some p := by
        rw [hr.registry]
        unfold Registry.lookup at hl ⊢
        simp only [List.lookup_cons]
        rw [beq_false_of_ne hne, hl]
      rw [hl']
      simp only [Option.bind_some] at h ⊢
      rw [hr.old p hp, Option.map_map]
      rw [← h]
      congr 1
      split
      · funext x; exact face_withRoot false x
      · rfl
  · intro f hf
    rw [List.mem_singleton] at hf
    subst hf
    unfold Syntax.faceOf Syntax.defined
    have hl' : s'.registry.lookup d.face.1 = some s.heap.length := by
      rw [hr.registry]
      unfold Registry.lookup
      simp [Def.face, List.lookup_cons]
    rw [hl']
    simp only [Option.bind_some]
    rw [hr.new]
    simp only [Option.map_some, Option.some.injEq]
    rw [face_id]
    split
    · exact face_withRoot ..
    · rfl

theorem register_adds {s s' : Syntax} {d : Def} (hb : Built s) (hreg : s.register d = (s', none)) : Adds s [d.face] s' :=
  (register_spec hb.inv.root_lt hreg).adds hb.inv

theorem class_adds {s s' : Syntax} {name : Name} {ct : Commit} {neg : Bool} {cs : List Rune} {rs : List (Rune × Rune)}
    (hb : Built s) (h : s.class_ name ct neg cs rs = (s', none)) :
    Adds s [(newChar (childName name 0) neg cs rs).face, (newSequence name ct [{ name := childName name 0 }]).face] s' := by
  unfold Syntax.class_ at h
  simp only at h
  split at h
  · simp at h
  · rename_i s1 hreg
    have h1 := Registered.addsChars hb hreg
    exact (register_adds hb hreg).trans (register_adds h1.built h)

theorem charSequenceLoop_adds {name : Name} : ∀ (cs : List Rune) (i : Nat) (refs refs' : List Name)
    (s s' : Syntax), Built s → Syntax.charSequenceLoop name i cs refs s = (s', none, refs') →
    Adds s ((cs.zipIdx i).map fun x => (newChar (childName name x.2) false [x.1] []).face) s'
  | [], i, refs, refs', s, s', hb, h => by
    simp only [Syntax.charSequenceLoop, Prod.mk.injEq] at h
    obtain ⟨rfl, -, rfl⟩ := h
    exact .refl _
  | c :: cs, i, refs, refs', s, s', hb, h => by
    simp only [Syntax.charSequenceLoop] at h
    split at h
    · simp at h
    · rename_i s1 hreg
      have h1 := Registered.addsChars hb hreg
      exact (register_adds hb hreg).trans (charSequenceLoop_adds cs (i + 1) _ _ _ _ h1.built h)

theorem charSequence_adds {s s' : Syntax} {name : Name} {ct : Commit} {cs : List Rune} (hb : Built s)
    (h : s.charSequence_ name ct cs = (s', none)) :
    Adds s (cs.zipIdx.map (fun x => (newChar (childName name x.2) false [x.1] []).face) ++
      [(newSequence name { ct with noWhitespace := true } ((List.range cs.length).map fun i => { name := childName name i })).face]) s' := by
  unfold Syntax.charSequence_ at h
  split at h
  · simp at h
  · rename_i s1 refs hl
    obtain ⟨h1, h2⟩ := charSequenceLoop_spec cs 0 _ _ _ _ hb hl
    have h3 := register_adds h1.built h
    have h4 : refs.map (fun r => ({ name := r } : SeqItem)) = (List.range cs.length).map fun i => { name := childName name i } := by
      rw [h2]; simp [List.range_eq_range', Function.comp_def]
    rw [h4] at h3
    exact (charSequenceLoop_adds _ _ _ _ _ _ hb hl).trans h3

theorem internalCall_adds {s s' : Syntax} {c : Call} (hb : Built s) (h : s.internalCall c = (s', none)) : Adds s c.faces s' := by
  cases c with
  | anyChar n ct => exact class_adds hb h
  | class_ n ct neg cs rs => exact class_adds hb h
  | charSequence n ct cs => exact charSequence_adds hb h
  | sequence n ct items => exact register_adds hb h
  | choice n ct os => exact register_adds hb h

theorem internalCalls_adds : ∀ {cs : List Call} {s s' : Syntax}, Built s → s.internalCalls cs = (s', none) →
    Adds s (cs.flatMap Call.faces) s'
  | [], s, s', _, h => by
    simp only [Syntax.internalCalls, Prod.mk.injEq, and_true] at h
    subst h
    exact .refl _
  | c :: cs, s, s', hb, h => by
    simp only [Syntax.internalCalls] at h
    split at h
    · rename_i s1 hs1
      exact (internalCall_adds hb hs1).trans (internalCalls_adds (internalCall_defines hb hs1).built h)
    · cases h

end Treerack
