import Verif.Spec.Quadrature
import Verif.Lemmas.Lstsq
import Verif.Model.NC
import Mathlib.LinearAlgebra.Vandermonde

namespace Verif
open Polynomial Spec

theorem eval_eq_sum_range_of_degree_lt {q : ℝ[X]} {d : ℕ} (h : q.degree < d) (t : ℝ) :
    q.eval t = ∑ n ∈ Finset.range d, q.coeff n * t ^ n := by
  by_cases hq : q = 0
  · subst hq; simp
  · exact Polynomial.eval_eq_sum_range' ((Polynomial.natDegree_lt_iff_degree_lt hq).mpr h) t

theorem integral_poly {q : ℝ[X]} {d : ℕ} (h : q.degree < d) (lo hi : ℝ) :
    ∫ t in lo..hi, q.eval t =
      ∑ n ∈ Finset.range d, q.coeff n * ((hi ^ (n + 1) - lo ^ (n + 1)) / (n + 1)) := by
  simp_rw [eval_eq_sum_range_of_degree_lt h]
  rw [intervalIntegral.integral_finsetSum]
  · refine Finset.sum_congr rfl fun n _ => ?_
    rw [intervalIntegral.integral_const_mul, integral_pow]
  · intro n _
    exact (Continuous.intervalIntegrable (by fun_prop) _ _)

/-- Moment conditions imply exactness. -/
theorem exactOn_of_moments {ι : Type*} [Fintype ι] {x w : ι → ℝ} {lo hi : ℝ} {d : ℕ}
    (h : ∀ n < d, ∑ j, w j * x j ^ n = (hi ^ (n + 1) - lo ^ (n + 1)) / (n + 1)) :
    ExactOn x w lo hi d := by
  intro q hq
  rw [integral_poly hq]
  simp_rw [eval_eq_sum_range_of_degree_lt hq, Finset.mul_sum]
  rw [Finset.sum_comm]
  refine Finset.sum_congr rfl fun n hn => ?_
  rw [← h n (Finset.mem_range.mp hn), Finset.mul_sum]
  exact Finset.sum_congr rfl fun j _ => by ring

namespace NC

theorem powMatrix_det_ne_zero {K : Type*} [Field K] {N : ℕ} {xi : Fin N → K}
    (h : Function.Injective xi) : (powMatrix xi).det ≠ 0 := by
  have : powMatrix xi = (Matrix.vandermonde xi).transpose := by
    ext i j; simp [powMatrix, Matrix.vandermonde_apply]
  rw [this, Matrix.det_transpose]
  exact Matrix.det_vandermonde_ne_zero_iff.mpr h

variable {K : Type*} [Field K] [LinearOrder K] [IsStrictOrderedRing K]

theorem blockPts_injective (N : ℕ) : Function.Injective (blockPts N : Fin N → K) := by
  intro i j h
  simp only [blockPts, Nat.cast_inj] at h
  exact Fin.ext h

theorem edgePts_injective (N : ℕ) : Function.Injective (edgePts N : Fin N → K) := by
  intro i j h
  simp only [edgePts] at h
  apply Fin.ext
  by_cases hi : i.1 = 0 <;> by_cases hj : j.1 = 0 <;> simp only [hi, hj, if_true, if_false] at h ⊢
  · exfalso
    have : (1 : K) ≤ j.1 := by exact_mod_cast Nat.one_le_iff_ne_zero.mpr hj
    linarith
  · exfalso
    have : (1 : K) ≤ i.1 := by exact_mod_cast Nat.one_le_iff_ne_zero.mpr hi
    linarith
  · have : (i.1 : K) = j.1 := by linarith
    exact_mod_cast this

/-- The block solution satisfies its moment equations. -/
theorem block_moments {N : ℕ} {w : Fin N → K}
    (h : IsLstsq (powMatrix (blockPts N)) (blockRhs N) w) (n : ℕ) (hn : n < N) :
    ∑ j, w j * (blockPts N j : K) ^ n = ((N : K) - 1) ^ (n + 1) / (n + 1) := by
  have h1 := (isLstsq_iff (powMatrix_det_ne_zero (blockPts_injective N)) _ _).mp h
  have h2 := congrFun h1 ⟨n, hn⟩
  simp only [Matrix.mulVec, dotProduct, powMatrix, blockRhs] at h2
  rw [div_eq_mul_one_div, mul_comm _ (1 / _), ← h2]
  exact Finset.sum_congr rfl fun j _ => mul_comm _ _

/-- The edge solution satisfies its moment equations. -/
theorem edge_moments {N : ℕ} {e : Fin N → K}
    (h : IsLstsq (powMatrix (edgePts N)) (edgeRhs N) e) (n : ℕ) (hn : n < N) :
    ∑ j, e j * (edgePts N j : K) ^ n = (1 / 2) ^ (n + 1) / (n + 1) := by
  have h1 := (isLstsq_iff (powMatrix_det_ne_zero (edgePts_injective N)) _ _).mp h
  have h2 := congrFun h1 ⟨n, hn⟩
  simp only [Matrix.mulVec, dotProduct, powMatrix, edgeRhs] at h2
  rw [div_eq_mul_one_div, mul_comm _ (1 / (_ + 1)), ← h2]
  exact Finset.sum_congr rfl fun j _ => mul_comm _ _

theorem block_exact {N : ℕ} {w : Fin N → ℝ}
    (h : IsLstsq (powMatrix (blockPts N)) (blockRhs N) w) :
    ExactOn (blockPts N) w 0 (N - 1) N := by
  apply exactOn_of_moments
  intro n hn
  rw [block_moments h n hn]
  simp

theorem edge_exact {N : ℕ} {e : Fin N → ℝ}
    (h : IsLstsq (powMatrix (edgePts N)) (edgeRhs N) e) :
    ExactOn (edgePts N) e 0 (1 / 2) N := by
  apply exactOn_of_moments
  intro n hn
  rw [edge_moments h n hn]
  simp

/-- Solutions exist (the systems are non-singular). -/
theorem exists_lstsq {N : ℕ} {xi : Fin N → K} (h : Function.Injective xi) (b : Fin N → K) :
    ∃ w, IsLstsq (powMatrix xi) b w := by
  have hu : IsUnit (powMatrix xi).det := isUnit_iff_ne_zero.mpr (powMatrix_det_ne_zero h)
  refine ⟨(powMatrix xi)⁻¹.mulVec b, (isLstsq_iff (powMatrix_det_ne_zero h) _ _).mpr ?_⟩
  rw [Matrix.mulVec_mulVec, Matrix.mul_nonsing_inv _ hu, Matrix.one_mulVec]

omit [LinearOrder K] [IsStrictOrderedRing K] in
theorem eq_of_moments {N : ℕ} {xi : Fin N → K} (h : Function.Injective xi) {v w : Fin N → K}
    (hm : ∀ n < N, ∑ j, v j * xi j ^ n = ∑ j, w j * xi j ^ n) : v = w := by
  apply mulVec_inj_of_det_ne_zero (powMatrix_det_ne_zero h)
  funext n
  simp only [Matrix.mulVec, dotProduct, powMatrix]
  have := hm n.1 n.2
  simpa [mul_comm] using this

end NC
end Verif
