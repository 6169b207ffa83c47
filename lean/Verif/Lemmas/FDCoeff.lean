import Verif.Model.FDCoeff
import Verif.Lemmas.Quadrature
import Mathlib.Algebra.Polynomial.Derivative
import Mathlib.Tactic.FieldSimp

namespace Verif
namespace FDC
open Polynomial
variable {K : Type*} [Field K] [LinearOrder K] [IsStrictOrderedRing K]

theorem table_eq {N : ℕ} (x : Fin N → K) :
    table x = Matrix.diagonal (fun n : Fin N => -1 / (Nat.factorial n.1 : K)) * NC.powMatrix x := by
  ext n j
  simp [table, NC.powMatrix, Matrix.diagonal_mul]

theorem table_det_ne_zero {N : ℕ} {x : Fin N → K} (h : Function.Injective x) :
    (table x).det ≠ 0 := by
  rw [table_eq, Matrix.det_mul, Matrix.det_diagonal]
  refine mul_ne_zero (Finset.prod_ne_zero_iff.mpr fun n _ => ?_) (NC.powMatrix_det_ne_zero h)
  have : (Nat.factorial n.1 : K) ≠ 0 := by exact_mod_cast Nat.factorial_ne_zero _
  exact div_ne_zero (by norm_num) this

/-- Moment conditions of the least-squares solution. -/
theorem moments {N deriv : ℕ} {x : Fin N → K} (h : Function.Injective x) {c : Fin N → K}
    (hc : IsLstsq (table x) (rhs N deriv) c) (n : ℕ) (hn : n < N) :
    ∑ j, c j * x j ^ n = if n = deriv then (Nat.factorial deriv : K) else 0 := by
  have h1 := congrFun ((isLstsq_iff (table_det_ne_zero h) _ _).mp hc) ⟨n, hn⟩
  simp only [Matrix.mulVec, dotProduct, table, rhs] at h1
  have hf : (Nat.factorial n : K) ≠ 0 := by exact_mod_cast Nat.factorial_ne_zero _
  have h2 : ∑ j, c j * x j ^ n =
      -(Nat.factorial n : K) * ∑ j, -1 / (Nat.factorial n : K) * x j ^ n * c j := by
    rw [Finset.mul_sum]
    refine Finset.sum_congr rfl fun j _ => ?_
    field_simp
  rw [h2, h1]
  split
  · rename_i h3; rw [h3]; ring
  · ring

theorem eval_sum {q : K[X]} {d : ℕ} (h : q.degree < d) (t : K) :
    q.eval t = ∑ n ∈ Finset.range d, q.coeff n * t ^ n := by
  by_cases hq : q = 0
  · subst hq; simp
  · exact Polynomial.eval_eq_sum_range' ((Polynomial.natDegree_lt_iff_degree_lt hq).mpr h) t

theorem iterate_derivative_eval_zero (q : K[X]) (d : ℕ) :
    (derivative^[d] q).eval 0 = (Nat.factorial d : K) * q.coeff d := by
  rw [← coeff_zero_eq_eval_zero, coeff_iterate_derivative]
  simp [Nat.descFactorial_self, mul_comm]

/-- The stencil differentiates polynomials exactly. -/
theorem exact {N deriv : ℕ} (hd : deriv < N) {x : Fin N → K} (h : Function.Injective x)
    {c : Fin N → K} (hc : IsLstsq (table x) (rhs N deriv) c) (q : K[X]) (hq : q.degree < N) :
    ∑ j, c j * q.eval (x j) = (derivative^[deriv] q).eval 0 := by
  simp_rw [eval_sum hq, Finset.mul_sum]
  rw [Finset.sum_comm]
  have h1 : ∀ n ∈ Finset.range N, ∑ j, c j * (q.coeff n * x j ^ n) =
      if n = deriv then q.coeff n * (Nat.factorial deriv : K) else 0 := by
    intro n hn
    have h2 := moments h hc n (Finset.mem_range.mp hn)
    calc ∑ j, c j * (q.coeff n * x j ^ n) = q.coeff n * ∑ j, c j * x j ^ n := by
          rw [Finset.mul_sum]; exact Finset.sum_congr rfl fun j _ => by ring
      _ = _ := by rw [h2]; split <;> simp
  rw [Finset.sum_congr rfl h1, Finset.sum_ite_eq', if_pos (Finset.mem_range.mpr hd),
    iterate_derivative_eval_zero, mul_comm]

theorem unique {N deriv : ℕ} {x : Fin N → K} (h : Function.Injective x) {c c' : Fin N → K}
    (hc : IsLstsq (table x) (rhs N deriv) c)
    (hm : ∀ n < N, ∑ j, c' j * x j ^ n = if n = deriv then (Nat.factorial deriv : K) else 0) :
    c' = c :=
  NC.eq_of_moments h fun n hn => by rw [hm n hn, moments h hc n hn]

/-- On a symmetric stencil the coefficients have the parity of the derivative. -/
theorem parity {N deriv : ℕ} {x : Fin N → K} (h : Function.Injective x)
    (hx : ∀ j, x j.rev = - x j) {c : Fin N → K} (hc : IsLstsq (table x) (rhs N deriv) c)
    (j : Fin N) : c j.rev = (-1) ^ deriv * c j := by
  have key : (fun j : Fin N => (-1) ^ deriv * c j.rev) = c := by
    apply unique h hc
    intro n hn
    have h1 : ∑ j : Fin N, (-1) ^ deriv * c j.rev * x j ^ n =
        (-1) ^ deriv * (-1) ^ n * ∑ j, c j * x j ^ n := by
      rw [← Equiv.sum_comp Fin.revPerm, Finset.mul_sum]
      refine Finset.sum_congr rfl fun j _ => ?_
      simp only [Fin.revPerm_apply, Fin.rev_rev, hx]
      rw [neg_pow]; ring
    rw [h1, moments h hc n hn]
    split
    · rename_i h2; rw [h2, ← pow_add, ← two_mul, pow_mul]; simp
    · simp
  have := congrFun key j
  rw [← this, ← mul_assoc, ← pow_add, ← two_mul, pow_mul]; simp

theorem zeroSmall_parity {N deriv : ℕ} {c : Fin N → K}
    (h : ∀ j : Fin N, c j.rev = (-1) ^ deriv * c j) (j : Fin N) :
    zeroSmall c j.rev = (-1) ^ deriv * zeroSmall c j := by
  unfold zeroSmall
  rw [h j, abs_mul, abs_pow, abs_neg, abs_one, one_pow, one_mul]
  split <;> simp

end FDC
end Verif
