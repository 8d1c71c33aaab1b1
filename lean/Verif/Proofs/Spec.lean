import Verif.Model.Basic

/-
Reasoning about results: what holds of the value, when is a panic or an exhausted budget possible.
-/

namespace Treerack

/-- `x` is a value satisfying `P`, or a panic and `pb` holds, or out of budget and `ob` holds. -/
def Res.Spec {α : Type} (x : Res α) (pb ob : Prop) (P : α → Prop) : Prop :=
  match x with
  | .ok a => P a
  | .panic => pb
  | .oof => ob

theorem Res.bind_eq_ok {α β : Type} {x : Res α} {f : α → Res β} {b : β} (h : x.bind f = .ok b) :
    ∃ a, x = .ok a ∧ f a = .ok b := by
  cases x with
  | ok a => exact ⟨a, rfl, h⟩
  | panic => cases h
  | oof => cases h

theorem ite_cases {α : Type} {b : Bool} {x y z : α} (h : (if b = true then x else y) = z) :
    (b = true ∧ x = z) ∨ (b = false ∧ y = z) := by
  cases b
  · exact Or.inr ⟨rfl, h⟩
  · exact Or.inl ⟨rfl, h⟩

namespace Res.Spec
variable {α β : Type} {pb ob : Prop}

@[simp] theorem ok_iff (a : α) (P : α → Prop) : Res.Spec (.ok a) pb ob P ↔ P a := Iff.rfl

theorem bind {x : Res α} {f : α → Res β} {P : α → Prop} {Q : β → Prop}
    (h : x.Spec pb ob P) (hf : ∀ a, P a → (f a).Spec pb ob Q) : (x.bind f).Spec pb ob Q := by
  cases x with
  | ok a => exact hf a h
  | panic => exact h
  | oof => exact h

theorem mono {x : Res α} {P Q : α → Prop} {pb' ob' : Prop} (h : x.Spec pb ob P) (hp : pb → pb')
    (ho : ob → ob') (hPQ : ∀ a, P a → Q a) : x.Spec pb' ob' Q := by
  cases x with
  | ok a => exact hPQ a h
  | panic => exact hp h
  | oof => exact ho h

theorem imp {x : Res α} {P Q : α → Prop} (h : x.Spec pb ob P) (hPQ : ∀ a, P a → Q a) :
    x.Spec pb ob Q := h.mono id id hPQ

theorem and {x : Res α} {P Q : α → Prop} {pb' ob' : Prop} (h : x.Spec pb ob P)
    (h' : x.Spec pb' ob' Q) : x.Spec (pb ∧ pb') (ob ∧ ob') (fun a => P a ∧ Q a) := by
  cases x with
  | ok a => exact ⟨h, h'⟩
  | panic => exact ⟨h, h'⟩
  | oof => exact ⟨h, h'⟩

theorem of_eq {x : Res α} {P : α → Prop} {a : α} (h : x.Spec pb ob P) (e : x = .ok a) : P a := by
  subst e; exact h

theorem with_eq {x : Res α} {P : α → Prop} (h : x.Spec pb ob P) : x.Spec pb ob (fun a => P a ∧ x = .ok a) := by
  cases x with
  | ok a => exact ⟨h, rfl⟩
  | panic => exact h
  | oof => exact h

end Res.Spec
end Treerack
