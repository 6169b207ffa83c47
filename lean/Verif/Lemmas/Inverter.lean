import Verif.Model.Inverter
import Verif.Lemmas.Grid
import Mathlib.Tactic.Ring
import Mathlib.Tactic.Linarith
import Mathlib.Tactic.FieldSimp

/-! # Lemmas about the unknown vector of `orbitalinvert` -/

namespace Verif
namespace OrbInv

section Vector
variable {K : Type*} {n M : ℕ}

@[simp] theorem divNat_pair (i : Fin (M + 1)) (k : Fin n) :
    (finProdFinEquiv (i, k)).divNat = i :=
  congrArg Prod.fst (finProdFinEquiv.symm_apply_apply (i, k))

@[simp] theorem modNat_pair (i : Fin (M + 1)) (k : Fin n) :
    (finProdFinEquiv (i, k)).modNat = k :=
  congrArg Prod.snd (finProdFinEquiv.symm_apply_apply (i, k))

@[simp] theorem pair_eta (t : Fin ((M + 1) * n)) : finProdFinEquiv (t.divNat, t.modNat) = t :=
  finProdFinEquiv.apply_symm_apply t

@[simp] theorem flat_pair (phi : Fin (M + 1) → Fin n → K) (i : Fin (M + 1)) (k : Fin n) :
    flat phi (finProdFinEquiv (i, k)) = phi i k := by simp [flat]

@[simp] theorem stack_orb (a : Fin ((M + 1) * n) → K) (b : Fin M → K) (c : Fin n → K)
    (t : Fin ((M + 1) * n)) : stack a b c (Fin.castAdd _ t) = a t := by simp [stack]

@[simp] theorem stack_phiIx (a : Fin ((M + 1) * n) → K) (b : Fin M → K) (c : Fin n → K)
    (i : Fin (M + 1)) (k : Fin n) : stack a b c (phiIx i k) = a (finProdFinEquiv (i, k)) := by
  simp [phiIx]

@[simp] theorem stack_eigIx (a : Fin ((M + 1) * n) → K) (b : Fin M → K) (c : Fin n → K) (i : Fin M) :
    stack a b c (eigIx i) = b i := by simp [stack, eigIx]

@[simp] theorem stack_potIx (a : Fin ((M + 1) * n) → K) (b : Fin M → K) (c : Fin n → K) (k : Fin n) :
    stack a b c (potIx k) = c k := by simp [stack, potIx]

/-- Every position is one of the three kinds. -/
theorem ix_cases {P : Fin ((M + 1) * n + (M + n)) → Prop} (h1 : ∀ i k, P (phiIx i k))
    (h2 : ∀ i, P (eigIx i)) (h3 : ∀ k, P (potIx k)) (j) : P j := by
  induction j using Fin.addCases with
  | left t => have := h1 t.divNat t.modNat; simpa [phiIx] using this
  | right j =>
    induction j using Fin.addCases with
    | left i => exact h2 i
    | right k => exact h3 k

theorem unk_ext {X Y : Unk K n M} (h1 : ∀ i k, X (phiIx i k) = Y (phiIx i k))
    (h2 : ∀ i, X (eigIx i) = Y (eigIx i)) (h3 : ∀ k, X (potIx k) = Y (potIx k)) : X = Y :=
  funext (ix_cases (P := fun j => X j = Y j) h1 h2 h3)

@[simp] theorem phiOf_stack (a : Fin ((M + 1) * n) → K) (b : Fin M → K) (c : Fin n → K)
    (i : Fin (M + 1)) (k : Fin n) : phiOf (stack a b c) i k = a (finProdFinEquiv (i, k)) := by
  simp [phiOf]

@[simp] theorem potOf_stack (a : Fin ((M + 1) * n) → K) (b : Fin M → K) (c : Fin n → K) :
    potOf (stack a b c) = c := by
  funext k; simp [potOf]

@[simp] theorem evalsOf_castSucc [Zero K] (X : Unk K n M) (i : Fin M) :
    evalsOf X i.castSucc = X (eigIx i) := by simp [evalsOf]

@[simp] theorem evalsOf_last [Zero K] (X : Unk K n M) : evalsOf X (Fin.last M) = 0 := by
  simp [evalsOf]

/-- Sums over positions split into the three blocks. -/
theorem sum_ix [AddCommMonoid K] (f : Fin ((M + 1) * n + (M + n)) → K) :
    ∑ j, f j = (∑ i, ∑ k, f (phiIx i k)) + ((∑ i, f (eigIx i)) + ∑ k, f (potIx k)) := by
  rw [Fin.sum_univ_add, Fin.sum_univ_add, ← (finProdFinEquiv (m := M + 1) (n := n)).sum_comp,
    Fintype.sum_prod_type]
  rfl

/-- Sums over the orbital block. -/
theorem sum_orb [AddCommMonoid K] (f : Fin ((M + 1) * n) → K) :
    ∑ t, f t = ∑ i, ∑ k, f (finProdFinEquiv (i, k)) := by
  rw [← (finProdFinEquiv (m := M + 1) (n := n)).sum_comp, Fintype.sum_prod_type]

end Vector
end OrbInv
end Verif
