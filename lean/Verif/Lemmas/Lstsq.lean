import Verif.Model.Lstsq
import Mathlib.LinearAlgebra.Matrix.NonsingularInverse
import Mathlib.Algebra.Order.Ring.Defs
import Mathlib.Tactic.Linarith
import Mathlib.Tactic.Positivity

namespace Verif
variable {K : Type*} [Field K] [LinearOrder K] [IsStrictOrderedRing K]

/-- A least-squares solution of a solvable system solves it. -/
theorem IsLstsq.solves {m n : ℕ} {A : Matrix (Fin m) (Fin n) K} {b : Fin m → K} {x : Fin n → K}
    (h : IsLstsq A b x) (y : Fin n → K) (hy : A.mulVec y = b) : A.mulVec x = b := by
  have h1 := h y
  rw [hy] at h1
  simp only [sub_self, ne_eq, OfNat.ofNat_ne_zero, not_false_eq_true, zero_pow,
    Finset.sum_const_zero] at h1
  have h2 : ∑ i, (A.mulVec x i - b i) ^ 2 = 0 :=
    le_antisymm h1 (Finset.sum_nonneg fun i _ => sq_nonneg _)
  rw [Finset.sum_eq_zero_iff_of_nonneg (fun i _ => sq_nonneg _)] at h2
  funext i
  have := h2 i (Finset.mem_univ i)
  exact sub_eq_zero.mp (pow_eq_zero_iff (two_ne_zero)|>.mp this)

/-- For a non-singular square matrix the least-squares solution is the unique solution. -/
theorem isLstsq_iff {n : ℕ} {A : Matrix (Fin n) (Fin n) K} (hA : A.det ≠ 0) (b x : Fin n → K) :
    IsLstsq A b x ↔ A.mulVec x = b := by
  have hu : IsUnit A.det := isUnit_iff_ne_zero.mpr hA
  constructor
  · intro h
    refine h.solves (A⁻¹.mulVec b) ?_
    rw [Matrix.mulVec_mulVec, Matrix.mul_nonsing_inv _ hu, Matrix.one_mulVec]
  · intro h y
    rw [h]
    simp only [sub_self, ne_eq, OfNat.ofNat_ne_zero, not_false_eq_true, zero_pow,
      Finset.sum_const_zero]
    exact Finset.sum_nonneg fun i _ => sq_nonneg _

omit [LinearOrder K] [IsStrictOrderedRing K] in
theorem mulVec_inj_of_det_ne_zero {n : ℕ} {A : Matrix (Fin n) (Fin n) K} (hA : A.det ≠ 0)
    {x y : Fin n → K} (h : A.mulVec x = A.mulVec y) : x = y := by
  have hu : IsUnit A.det := isUnit_iff_ne_zero.mpr hA
  have := congrArg A⁻¹.mulVec h
  simpa [Matrix.mulVec_mulVec, Matrix.nonsing_inv_mul _ hu] using this

end Verif
