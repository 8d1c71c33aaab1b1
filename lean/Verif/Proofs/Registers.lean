import Verif.Proofs.History
import Verif.Model.Define

/-
Reading a syntax document only registers definitions: a relation that is preserved by registering a definition is
preserved by reading a document.
-/

namespace Treerack
open Spec

/-- A reflexive and transitive relation that includes every registration, successful or not. -/
structure Registers (K : Syntax → Syntax → Prop) : Prop where
  refl : ∀ s, K s s
  trans : ∀ {a b c}, K a b → K b c → K a c
  register : ∀ s d, RawDef d → K s (s.register d).1

namespace Registers

variable {K : Syntax → Syntax → Prop} (hK : Registers K)
include hK

omit hK in
theorem of_ok {s s' : Syntax} {a : Syntax × Option SynErr} {x : Option SynErr} (h : Res.ok a = Res.ok (s', x))
    (k : K s a.1) : K s s' := by
  rw [Res.ok.inj h] at k
  exact k

theorem class_ (s : Syntax) (n : Name) (ct : Commit) (neg : Bool) (cs : List Rune)
    (rs : List (Rune × Rune)) : K s (s.class_ n ct neg cs rs).1 := by
  unfold Syntax.class_
  simp only
  have h1 := hK.register s _ (.char (childName n 0) neg cs rs)
  generalize s.register (newChar (childName n 0) neg cs rs) = x at h1
  obtain ⟨s1, e⟩ := x
  cases e with
  | some e => exact h1
  | none => exact hK.trans h1 (hK.register _ _ (.seq ..))

theorem charSequenceLoop (n : Name) : ∀ (cs : List Rune) (i : Nat) (refs : List Name) (s : Syntax),
    K s (Syntax.charSequenceLoop n i cs refs s).1
  | [], _, _, s => hK.refl s
  | c :: cs, i, refs, s => by
    unfold Syntax.charSequenceLoop
    simp only
    have h1 := hK.register s _ (.char (childName n i) false [c] [])
    generalize s.register (newChar (childName n i) false [c] []) = x at h1
    obtain ⟨s1, e⟩ := x
    cases e with
    | some e => exact h1
    | none => exact hK.trans h1 (charSequenceLoop n cs (i + 1) _ s1)

theorem charSequence_ (s : Syntax) (n : Name) (ct : Commit) (cs : List Rune) :
    K s (s.charSequence_ n ct cs).1 := by
  unfold Syntax.charSequence_
  have h1 := hK.charSequenceLoop n cs 0 [] s
  generalize Syntax.charSequenceLoop n 0 cs [] s = x at h1
  obtain ⟨s1, e, refs⟩ := x
  cases e with
  | some e => exact h1
  | none => exact hK.trans h1 (hK.register _ _ (.seq ..))

theorem sequence_ (s : Syntax) (n : Name) (ct : Commit) (items : List SeqItem) : K s (s.sequence_ n ct items).1 :=
  hK.register _ _ (.seq ..)

theorem choice_ (s : Syntax) (n : Name) (ct : Commit) (os : List Name) : K s (s.choice_ n ct os).1 :=
  hK.register _ _ (.choice ..)

theorem internalCall (s : Syntax) (c : Call) : K s (s.internalCall c).1 := by
  cases c with
  | anyChar n ct => exact hK.class_ ..
  | class_ n ct neg cs rs => exact hK.class_ ..
  | charSequence n ct cs => exact hK.charSequence_ ..
  | sequence n ct items => exact hK.sequence_ ..
  | choice n ct os => exact hK.choice_ ..

theorem defineMember {rec : Syntax → Name → Commit → Node → Res (Syntax × Option SynErr)}
    (hrec : ∀ s n ct e s' x, rec s n ct e = .ok (s', x) → K s s') {s s' : Syntax} {n : Name} {ct : Commit} {e : Node}
    {x : Option SynErr × Name} (h : defineMember rec s n ct e = .ok (s', x)) : K s s' := by
  unfold Treerack.defineMember at h
  split at h
  · obtain ⟨t, -, h⟩ := Res.bind_eq_ok h
    cases h; exact hK.refl s
  · obtain ⟨⟨s1, e1⟩, h1, h⟩ := Res.bind_eq_ok h
    cases h; exact hrec _ _ _ _ _ _ h1

theorem defineItems {rec : Syntax → Name → Commit → Node → Res (Syntax × Option SynErr)}
    (hrec : ∀ s n ct e s' x, rec s n ct e = .ok (s', x) → K s s') {name : Name} {ct : Commit} :
    ∀ (ns : List Node) (i : Nat) (items : List SeqItem) (s s' : Syntax) (x : Option SynErr × List SeqItem),
      defineItems rec name ct i ns items s = .ok (s', x) → K s s'
  | [], i, items, s, s', x, h => by cases h; exact hK.refl s
  | ni :: ns, i, items, s, s', x, h => by
    unfold Treerack.defineItems at h
    split at h
    · cases h
    · obtain ⟨⟨s1, e1, n1⟩, h1, h⟩ := Res.bind_eq_ok h
      have k1 := hK.defineMember hrec h1
      cases e1 with
      | some e1 => cases h; exact k1
      | none =>
        simp only at h
        obtain ⟨q, -, h⟩ := Res.bind_eq_ok h
        cases q with
        | none => cases h; exact k1
        | some q => exact hK.trans k1 (defineItems hrec ns _ _ _ _ _ h)

theorem defineOptions {rec : Syntax → Name → Commit → Node → Res (Syntax × Option SynErr)}
    (hrec : ∀ s n ct e s' x, rec s n ct e = .ok (s', x) → K s s') {name : Name} {ct : Commit} :
    ∀ (ns : List Node) (i : Nat) (refs : List Name) (s s' : Syntax) (x : Option SynErr × List Name),
      defineOptions rec name ct i ns refs s = .ok (s', x) → K s s'
  | [], i, items, s, s', x, h => by cases h; exact hK.refl s
  | ni :: ns, i, items, s, s', x, h => by
    unfold Treerack.defineOptions at h
    obtain ⟨⟨s1, e1, n1⟩, h1, h⟩ := Res.bind_eq_ok h
    have k1 := hK.defineMember hrec h1
    cases e1 with
    | some e1 => cases h; exact k1
    | none => exact hK.trans k1 (defineOptions hrec ns _ _ _ _ _ h)

theorem defineExpression : ∀ (k : Nat) (s : Syntax) (n : Name) (ct : Commit) (e : Node) (s' : Syntax)
    (x : Option SynErr), defineExpression k s n ct e = .ok (s', x) → K s s'
  | 0, _, _, _, _, _, _, h => by cases h
  | k + 1, s, n, ct, e, s', x, h => by
    unfold Treerack.defineExpression at h
    split at h
    · exact of_ok h (hK.class_ ..)
    · split at h
      · unfold defineClass at h
        simp only at h
        obtain ⟨⟨cs, rs⟩, -, h⟩ := Res.bind_eq_ok h
        exact of_ok h (hK.class_ ..)
      · split at h
        · unfold defineCharSequence at h
          obtain ⟨cs, -, h⟩ := Res.bind_eq_ok h
          exact of_ok h (hK.charSequence_ ..)
        · split at h
          · unfold defineSymbol at h
            obtain ⟨t, -, h⟩ := Res.bind_eq_ok h
            exact of_ok h (hK.sequence_ ..)
          · split at h
            · obtain ⟨⟨s1, e1, items⟩, h1, h⟩ := Res.bind_eq_ok h
              have k1 := hK.defineItems (fun _ _ _ _ _ _ h => defineExpression k _ _ _ _ _ _ h) _ _ _ _ _ _ h1
              cases e1 with
              | some e1 => cases h; exact k1
              | none => exact of_ok h (hK.trans k1 (hK.sequence_ ..))
            · split at h
              · obtain ⟨⟨s1, e1, refs⟩, h1, h⟩ := Res.bind_eq_ok h
                have k1 := hK.defineOptions (fun _ _ _ _ _ _ h => defineExpression k _ _ _ _ _ _ h) _ _ _ _ _ _ h1
                cases e1 with
                | some e1 => cases h; exact k1
                | none => exact of_ok h (hK.trans k1 (hK.choice_ ..))
              · cases h; exact hK.refl s

theorem addDefinition {s s' : Syntax} {n : Node} {x : Option SynErr} (h : addDefinition s n = .ok (s', x)) : K s s' := by
  unfold Treerack.addDefinition at h
  split at h
  · cases h
  · cases h
  · split at h
    · cases h
    · obtain ⟨name, -, h⟩ := Res.bind_eq_ok h
      exact hK.defineExpression _ _ _ _ _ _ _ h

theorem defineAll : ∀ (ns : List Node) (s s' : Syntax) (x : Option SynErr), defineAll ns s = .ok (s', x) → K s s'
  | [], s, s', x, h => by cases h; exact hK.refl s
  | n :: ns, s, s', x, h => by
    unfold Treerack.defineAll at h
    obtain ⟨⟨s1, e1⟩, h1, h⟩ := Res.bind_eq_ok h
    have k1 := hK.addDefinition h1
    cases e1 with
    | some e1 => cases h; exact k1
    | none => exact hK.trans k1 (defineAll ns _ _ _ h)

theorem define {s s' : Syntax} {t : Node} {x : Option SynErr} (h : define s t = .ok (s', x)) : K s s' :=
  hK.defineAll _ _ _ _ h

theorem readSyntax {s s' : Syntax} {y : Res (Except Err Node)} {x : Option SynErr} (h : s.ReadSyntax y = .ok (s', x)) :
    K s s' := by
  unfold Syntax.ReadSyntax at h
  split at h
  · cases h; exact hK.refl s
  · obtain ⟨z, -, h⟩ := Res.bind_eq_ok h
    cases z with
    | error e => cases h; exact hK.refl s
    | ok n => exact hK.define h

end Registers
end Treerack
