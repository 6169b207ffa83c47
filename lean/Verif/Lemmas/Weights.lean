import Verif.Model.Weights
import Verif.Spec.Grid
import Verif.Lemmas.Coordinates
import Mathlib.Algebra.BigOperators.Fin

namespace Verif
open Spec

variable {Na Nr : ℕ}

theorem at2_ia_ir (k : Fin (Na * Nr)) : at2 (Init.ia k) (Init.ir k) = k := by
  apply Fin.ext
  simp only [at2, pos, Init.ia, Init.ir, Nat.mul_zero, Nat.add_zero]
  exact Nat.mod_add_div _ _

theorem ia_at2 (i : Fin Na) (j : Fin Nr) : Init.ia (at2 i j) = i := by
  apply Fin.ext
  simp only [at2, pos, Init.ia, Nat.mul_zero, Nat.add_zero, Nat.add_mul_mod_self_left]
  exact Nat.mod_eq_of_lt i.2

theorem ir_at2 (i : Fin Na) (j : Fin Nr) : Init.ir (at2 i j) = j := by
  apply Fin.ext
  have hNa : 0 < Na := by have := i.2; omega
  simp only [at2, pos, Init.ir, Nat.mul_zero, Nat.add_zero]
  rw [Nat.add_mul_div_left _ _ hNa, Nat.div_eq_of_lt i.2, Nat.zero_add]

/-- Grid points versus flat positions. -/
def gridEquiv (Na Nr : ℕ) : Fin Na × Fin Nr ≃ Fin (Na * Nr) where
  toFun p := at2 p.1 p.2
  invFun k := (Init.ia k, Init.ir k)
  left_inv p := by simp [ia_at2, ir_at2]
  right_inv k := at2_ia_ir k

theorem sum_grid {M : Type*} [AddCommMonoid M] (g : Fin (Na * Nr) → M) :
    ∑ k, g k = ∑ i, ∑ j, g (at2 i j) := by
  rw [← (gridEquiv Na Nr).sum_comp, Fintype.sum_prod_type]
  rfl

theorem mirK_at2 (i : Fin Na) (j : Fin Nr) : Init.mirK (at2 i j) = at2 i.rev j := by
  apply Fin.ext
  simp only [Init.mirK, at2, pos, Nat.mul_zero, Nat.add_zero, Fin.val_rev]
  rw [Arr.flip0Pos_idx i.2]; omega

/-- With equal weight vectors the row-major and column-major layouts coincide. -/
theorem wiFlat_self {K : Type*} [CommMonoid K] {n : ℕ} (wa : Fin n → K) (k : Fin (n * n)) :
    Init.wiFlat wa wa k = wa (Init.ia k) * wa (Init.ir k) := by
  simp only [Init.wiFlat, Init.ia, Init.ir]
  rw [mul_comm]

end Verif
