import Verif.Lemmas.FDCoeff

/-!
# C10: finite-difference coefficients
-/

namespace Verif
open Polynomial FDC
variable {K : Type*} [Field K] [LinearOrder K] [IsStrictOrderedRing K]

/-- C10: the returned coefficients `c` come from exact ones `c0` by zeroing entries below `1e-10`;
`c0` satisfies the moment conditions and differentiates every polynomial of degree `< len(x)`
exactly; the returned ones do so up to `1e-10` times the sampled absolute values. -/
theorem C10_coefficients {N : ℕ} (x : Fin N → K) (hx : Function.Injective x) (d : ℕ) (hd : d < N)
    (r : Py (Fin N → K)) (hr : Returns x d r) :
    ∃ c c0 : Fin N → K, r = .ok c ∧
      (∀ j, c j = if |c0 j| < 1 / 10 ^ 10 then 0 else c0 j) ∧
      (∀ n < N, ∑ j, c0 j * (x j ^ n / (Nat.factorial n : K)) = if n = d then 1 else 0) ∧
      (∀ q : K[X], q.degree < N → ∑ j, c0 j * q.eval (x j) = (derivative^[d] q).eval 0) ∧
      (∀ q : K[X], q.degree < N → |∑ j, c j * q.eval (x j) - (derivative^[d] q).eval 0| ≤
        1 / 10 ^ 10 * ∑ j, |q.eval (x j)|) := by
  unfold Returns at hr
  rw [if_pos hd] at hr
  obtain ⟨c0, hc, rfl⟩ := hr
  refine ⟨_, c0, rfl, fun j => rfl, fun n hn => ?_, fun q hq => FDC.exact hd hx hc q hq,
    fun q hq => ?_⟩
  · have h1 := moments hx hc n hn
    have hf : (Nat.factorial n : K) ≠ 0 := by exact_mod_cast Nat.factorial_ne_zero _
    have h2 : ∑ j, c0 j * (x j ^ n / (Nat.factorial n : K)) =
        (∑ j, c0 j * x j ^ n) / (Nat.factorial n : K) := by
      rw [Finset.sum_div]; exact Finset.sum_congr rfl fun j _ => by ring
    rw [h2, h1]
    split
    · rename_i h3; subst h3; exact div_self hf
    · exact zero_div _
  · rw [← FDC.exact hd hx hc q hq, ← Finset.sum_sub_distrib, Finset.mul_sum]
    refine (Finset.abs_sum_le_sum_abs _ _).trans (Finset.sum_le_sum fun j _ => ?_)
    rw [← sub_mul, abs_mul]
    refine mul_le_mul_of_nonneg_right ?_ (abs_nonneg _)
    unfold zeroSmall
    split
    · rename_i h3; rw [zero_sub, abs_neg]; exact h3.le
    · rw [sub_self, abs_zero]; positivity

/-- C10: on a stencil symmetric about 0 the returned coefficients are symmetric for even and
antisymmetric for odd derivative order. -/
theorem C10_parity {N : ℕ} (x : Fin N → K) (hx : Function.Injective x)
    (hs : ∀ j, x j.rev = - x j) (d : ℕ) (c : Fin N → K) (hr : Returns x d (.ok c)) (j : Fin N) :
    c j.rev = (-1) ^ d * c j := by
  unfold Returns at hr
  split at hr
  · obtain ⟨c0, hc, h⟩ := hr
    injection h with h; subst h
    exact zeroSmall_parity (parity hx hs hc) j
  · cases hr

/-- C10: a derivative order not below the number of points raises `IndexError`. -/
theorem C10_error {N : ℕ} (x : Fin N → K) (d : ℕ) (hd : N ≤ d) (r : Py (Fin N → K)) :
    Returns x d r ↔ r = .error .indexError := by
  unfold Returns; rw [if_neg (by omega)]

/-- C10: for distinct points there is always exactly one result. -/
theorem C10_deterministic {N : ℕ} (x : Fin N → K) (hx : Function.Injective x) (d : ℕ) :
    ∃! r : Py (Fin N → K), Returns x d r := by
  by_cases hd : d < N
  · simp only [Returns, if_pos hd]
    have hu : IsUnit (table x).det := isUnit_iff_ne_zero.mpr (table_det_ne_zero hx)
    have hsol : IsLstsq (table x) (rhs N d) ((table x)⁻¹.mulVec (rhs N d)) := by
      rw [isLstsq_iff (table_det_ne_zero hx), Matrix.mulVec_mulVec, Matrix.mul_nonsing_inv _ hu,
        Matrix.one_mulVec]
    refine ⟨_, ⟨_, hsol, rfl⟩, fun r hr => ?_⟩
    obtain ⟨c, hc, rfl⟩ := hr
    rw [unique hx hsol (fun n hn => moments hx hc n hn)]
  · simp only [Returns, if_neg hd]
    exact ⟨.error .indexError, rfl, fun r hr => hr⟩

/-- The three-point first derivative is `-1/2, 0, 1/2`. -/
example : Returns (![-1, 0, 1] : Fin 3 → ℚ) 1 (.ok ![-1/2, 0, 1/2]) := by
  have hinj : Function.Injective (![-1, 0, 1] : Fin 3 → ℚ) := by decide
  unfold Returns
  rw [if_pos (by norm_num)]
  refine ⟨![-1/2, 0, 1/2], ?_, ?_⟩
  · rw [isLstsq_iff (table_det_ne_zero hinj)]
    funext n
    fin_cases n <;>
      simp [Matrix.mulVec, dotProduct, Fin.sum_univ_three, table, rhs, Nat.factorial] <;> norm_num
  · congr 1
    funext j
    fin_cases j <;> simp [zeroSmall] <;> norm_num [abs_of_neg]

end Verif
