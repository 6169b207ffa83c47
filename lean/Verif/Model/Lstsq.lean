import Mathlib.Data.Matrix.Mul
import Mathlib.Algebra.Order.Field.Basic
import Mathlib.Algebra.Order.BigOperators.Group.Finset
import Mathlib.Data.Real.Basic

/-!
# `np.linalg.lstsq`

`np.linalg.lstsq(A, b, rcond)[0]` is computed from the singular values of `A`: those up to `rcond` times the largest
one are treated as zero.  `Lstsq` says this; `IsLstsq` is what the name promises, a minimiser of `‖A x - b‖²`.
-/

namespace Verif
open Matrix

/-- `x` is a least-squares solution of `A x = b`. -/
def IsLstsq {K : Type*} [Field K] [LinearOrder K] {m n : ℕ}
    (A : Matrix (Fin m) (Fin n) K) (b : Fin m → K) (x : Fin n → K) : Prop :=
  ∀ y : Fin n → K, ∑ i, (A.mulVec x i - b i) ^ 2 ≤ ∑ i, (A.mulVec y i - b i) ^ 2

/-- `s` are the singular values of `A`, and the rows of `v` its right singular vectors: an orthonormal basis of
eigenvectors of `Aᵀ A`. -/
structure IsSvd {m n : ℕ} (A : Matrix (Fin m) (Fin n) ℝ) (s : Fin n → ℝ) (v : Matrix (Fin n) (Fin n) ℝ) : Prop where
  nonneg : ∀ i, 0 ≤ s i
  orth : v * vᵀ = 1
  sing : ∀ i, (Aᵀ * A) *ᵥ v i = s i ^ 2 • v i

open Classical in
/-- The sum over the singular values above `ρ` times the largest one (LAPACK `gelsd`: `S(i) <= RCOND*S(1)` are treated
as zero).  With the left singular vectors `uᵢ = A vᵢ / sᵢ` the terms are `(uᵢ · b / sᵢ) vᵢ`. -/
noncomputable def lstsqCut {m n : ℕ} (ρ : ℝ) (A : Matrix (Fin m) (Fin n) ℝ) (b : Fin m → ℝ) (s : Fin n → ℝ)
    (v : Matrix (Fin n) (Fin n) ℝ) : Fin n → ℝ :=
  ∑ i, if ∃ j, s i ≤ ρ * s j then 0 else ((A *ᵥ v i) ⬝ᵥ b / s i ^ 2) • v i

/-- `np.linalg.lstsq(A, b, rcond=ρ)[0]` is `x` (used in NC.py 17, 26 and finite_difference_coefficients.py 51). -/
def Lstsq {m n : ℕ} (ρ : ℝ) (A : Matrix (Fin m) (Fin n) ℝ) (b : Fin m → ℝ) (x : Fin n → ℝ) : Prop :=
  ∃ s v, IsSvd A s v ∧ x = lstsqCut ρ A b s v

end Verif
