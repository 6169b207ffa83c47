import Verif.Py.Basic
import Mathlib.Data.List.Forall2

/-! Two calls that behave alike: both raise the same exception, or both return, with related values. -/

namespace Verif.Py

/-- Both computations raise the same exception or return related values. -/
inductive Rel {α β : Type*} (R : α → β → Prop) : Py α → Py β → Prop
  | ok {a b} : R a b → Rel R (.ok a) (.ok b)
  | error (e) : Rel R (.error e) (.error e)

variable {α β γ δ W : Type}

theorem Rel.bind {R : α → β → Prop} {S : γ → δ → Prop} {x : Py α} {y : Py β} {f : α → Py γ} {g : β → Py δ}
    (h : Rel R x y) (hf : ∀ a b, R a b → Rel S (f a) (g b)) : Rel S (x >>= f) (y >>= g) := by
  cases h with
  | ok h => exact hf _ _ h
  | error e => exact .error e

theorem Rel.pure {R : α → β → Prop} {a : α} {b : β} (h : R a b) : Rel R (pure a : Py α) (pure b : Py β) := .ok h

theorem Rel.mono {R S : α → β → Prop} (h : ∀ a b, R a b → S a b) {x : Py α} {y : Py β} (hx : Rel R x y) : Rel S x y := by
  cases hx with
  | ok hx => exact .ok (h _ _ hx)
  | error e => exact .error e

theorem Rel.foldlM {R : α → β → Prop} {f : α → W → Py α} {g : β → W → Py β} (l : List W)
    (h : ∀ a b w, R a b → Rel R (f a w) (g b w)) : ∀ a b, R a b → Rel R (l.foldlM f a) (l.foldlM g b) := by
  induction l with
  | nil => exact fun a b hab => .ok hab
  | cons w l ih =>
    intro a b hab
    rw [List.foldlM_cons, List.foldlM_cons]
    exact (h a b w hab).bind ih

theorem Rel.mapM {R : α → β → Prop} {f : W → Py α} {g : W → Py β} (h : ∀ w, Rel R (f w) (g w)) (l : List W) :
    Rel (List.Forall₂ R) (l.mapM f) (l.mapM g) := by
  induction l with
  | nil => exact .ok .nil
  | cons w l ih =>
    rw [List.mapM_cons, List.mapM_cons]
    exact (h w).bind fun a b hab => ih.bind fun as bs hs => .ok (.cons hab hs)

theorem Rel.of_eq {x y : Py α} (h : y = x) : Rel Eq x y := by
  subst h
  cases y with
  | ok a => exact .ok rfl
  | error e => exact .error e

theorem Rel.eq {x y : Py α} (h : Rel Eq x y) : y = x := by
  cases h with
  | ok h => rw [h]
  | error e => rfl

theorem Rel.of_map {R : α → β → Prop} {x : Py α} {y : Py β} (f : α → β) (hf : ∀ a, R a (f a)) (h : y = x.map f) : Rel R x y := by
  subst h
  cases x with
  | ok a => exact .ok (hf a)
  | error e => exact .error e

theorem Rel.ok_left {R : α → β → Prop} {x : Py α} {y : Py β} {a : α} (h : Rel R x y) (hx : x = .ok a) : ∃ b, y = .ok b ∧ R a b := by
  subst hx
  cases h with
  | ok h => exact ⟨_, rfl, h⟩

end Verif.Py
