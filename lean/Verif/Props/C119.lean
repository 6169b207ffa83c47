import Verif.Lemmas.FDCoeffNumpy
import Verif.Props.C11_C13

/-! # C119: difference coefficients with numpy's cut-off and integers -/

namespace Verif
open Polynomial Matrix FD FDC

/-! ## The result is bounded -/

/-- The result of `lstsq` is at most the right-hand side divided by the cut-off. -/
theorem Lstsq.norm_le {m n : ℕ} {A : Matrix (Fin m) (Fin n) ℝ} {ρ : ℝ} (hρ : 0 ≤ ρ) {b : Fin m → ℝ} {x : Fin n → ℝ}
    (hx : Lstsq ρ A b x) (u : Fin n → ℝ) :
    ρ ^ 2 * ((A *ᵥ u) ⬝ᵥ (A *ᵥ u)) * (x ⬝ᵥ x) ≤ (u ⬝ᵥ u) * (b ⬝ᵥ b) := by
  classical
  obtain ⟨s, v, h, hx⟩ := hx
  have hco : ∀ i, v i ⬝ᵥ x = if ∃ j, s i ≤ ρ * s j then 0 else (A *ᵥ v i) ⬝ᵥ b / s i ^ 2 := fun i => by
    rw [hx, h.coeff]
  have hbx : (A *ᵥ x) ⬝ᵥ b = (A *ᵥ x) ⬝ᵥ (A *ᵥ x) := by
    have e : ∀ w : Fin n → ℝ, (A *ᵥ w) ⬝ᵥ b = w ⬝ᵥ (Aᵀ *ᵥ b) := fun w => by
      rw [dotProduct_mulVec w, ← mulVec_transpose, transpose_transpose]
    rw [e, h.normSq, h.dot]
    refine Finset.sum_congr rfl fun i _ => ?_
    rw [← e, hco]
    split_ifs with hc
    · simp
    · have : s i ≠ 0 := fun h0 => hc ⟨i, by rw [h0, mul_zero]⟩
      field_simp
  have h1 : (A *ᵥ x) ⬝ᵥ (A *ᵥ x) ≤ b ⬝ᵥ b := by
    have h2 : (A *ᵥ x - b) ⬝ᵥ (A *ᵥ x - b) = b ⬝ᵥ b - (A *ᵥ x) ⬝ᵥ (A *ᵥ x) := by
      rw [sub_dotProduct, dotProduct_sub, dotProduct_sub, hbx, dotProduct_comm b, hbx]; ring
    have h3 : 0 ≤ (A *ᵥ x - b) ⬝ᵥ (A *ᵥ x - b) := Finset.sum_nonneg fun i _ => mul_self_nonneg _
    linarith
  refine le_trans ?_ (mul_le_mul_of_nonneg_left h1 (Finset.sum_nonneg fun i _ => mul_self_nonneg _))
  rw [h.dot x x, h.normSq x, Finset.mul_sum, Finset.mul_sum]
  refine Finset.sum_le_sum fun i _ => ?_
  by_cases hc : ∃ j, s i ≤ ρ * s j
  · rw [hco, if_pos hc]; simp
  · push Not at hc
    have h2 : ρ ^ 2 * ((A *ᵥ u) ⬝ᵥ (A *ᵥ u)) ≤ s i ^ 2 * (u ⬝ᵥ u) := by
      rw [h.normSq u, h.dot u u, Finset.mul_sum, Finset.mul_sum]
      refine Finset.sum_le_sum fun j _ => ?_
      have := pow_le_pow_left₀ (mul_nonneg hρ (h.nonneg j)) (hc j).le 2
      nlinarith [mul_le_mul_of_nonneg_right this (sq_nonneg (v j ⬝ᵥ u))]
    nlinarith [mul_le_mul_of_nonneg_right h2 (sq_nonneg (v i ⬝ᵥ x))]

/-! ## Where nothing is cut off -/

/-- C119 (part): for offsets whose table has a condition number (in the sum-of-squares norm) below `2^53` the result is
that of the exact least-squares problem, so all of C10 holds. -/
theorem C119_conditioned_partial {N : ℕ} {x : Fin N → ℝ} (hx : Function.Injective x)
    (hc : (1 / 2 ^ 53) ^ 2 * sqSum (table x) * sqSum (table x)⁻¹ < 1) (d : ℕ) (r : Py (Fin N → ℝ)) :
    ReturnsFloat x d r ↔ FDC.Returns x d r := by
  have hd := table_det_ne_zero hx
  have hu : IsUnit (table x).det := isUnit_iff_ne_zero.mpr hd
  have hs := fun b w => lstsq_iff_of_cond (ρ := FDC.rcond) (Matrix.nonsing_inv_mul _ hu) hc b w
  simp only [ReturnsFloat, FDC.Returns, isLstsq_iff hd, hs]

/-- C119 (part): for the centred stencils `-k, .., k` with `k ≤ 9` numpy's cut-off and integers change nothing: the result
is that of the exact least-squares problem, for integer arrays and for floats.  All statements about grids which take
their coefficients from `FDC.Returns` apply to these stencils. -/
theorem C119_stencils_partial {k : ℕ} (hk : k ≤ 9) (d : ℕ) (r : Py (Fin (2 * k + 1) → ℝ)) :
    (ReturnsInt (centred k) d r ↔ FDC.Returns (fun i => ((centred k i : ℤ) : ℝ)) d r) ∧
    (ReturnsFloat (fun i => ((centred k i : ℤ) : ℝ)) d r ↔ FDC.Returns (fun i => ((centred k i : ℤ) : ℝ)) d r) := by
  have hd := table_det_ne_zero (centred_injective (K := ℝ) k)
  have hs := fun b w => (centred_fine k hk).solves b w
  rw [table_map] at hs
  simp only [ReturnsInt, ReturnsFloat, FDC.Returns, isLstsq_iff hd, tableInt_centred hk, hs, and_self]

/-- The nine-point stencil of the examples. -/
example (r : Py (Fin 9 → ℝ)) : ReturnsInt (centred 4) 2 r ↔ FDC.Returns (fun i => ((centred 4 i : ℤ) : ℝ)) 2 r :=
  (C119_stencils_partial (k := 4) (by norm_num) 2 r).1

/-! ## Where the result is wrong -/

/-- C119 fails for 21 points given as integers: `10 ** 19` does not fit into 64 bits.  The first derivative of `x ^ 19` at
0 comes out more than fifty times as large as the tolerance of C10 allows. -/
theorem C119_refuted_integers (r : Py (Fin 21 → ℝ)) (hr : ReturnsInt (centred 10) 1 r) :
    ∃ c, r = .ok c ∧ 50 * (1 / 10 ^ 10 * ∑ j, |(X ^ 19 : ℝ[X]).eval ((centred 10 j : ℤ) : ℝ)|) <
      |∑ j, c j * (X ^ 19 : ℝ[X]).eval ((centred 10 j : ℤ) : ℝ) - (derivative^[1] (X ^ 19 : ℝ[X])).eval 0| := by
  rw [ReturnsInt, if_pos (by norm_num)] at hr
  obtain ⟨c, hc, rfl⟩ := hr
  refine ⟨_, rfl, ?_⟩
  have hs := fun b w => fine21.solves b w
  rw [tableInt_map] at hs
  have h1 := (hs _ _).mp hc
  have hq : c = fun j => (((-inverse21Matrix j 1 : ℚ)) : ℝ) := by
    have hB := NC.map_mul_one fine21.1
    rw [tableInt_map] at hB
    have h2 := congrArg (fun w => ((inverse21Matrix.map
      fun x => (x : ℝ)) *ᵥ w)) h1
    simp only [mulVec_mulVec, hB, one_mulVec] at h2
    rw [h2]
    funext j
    simp only [mulVec, dotProduct, rhs, map_apply]
    rw [Finset.sum_eq_single (1 : Fin 21)]
    · simp
    · intro n _ hn
      have : ¬ n.1 = 1 := fun h => hn (Fin.ext h)
      simp [this]
    · simp
  have key : 50 * (1 / 10 ^ 10 * ∑ j : Fin 21, |((centred 10 j : ℤ) : ℚ) ^ 19|) <
      |∑ j : Fin 21, zeroSmall (fun j : Fin 21 => (-inverse21Matrix j 1 : ℚ)) j * ((centred 10 j : ℤ) : ℚ) ^ 19| := by
    decide +kernel
  have hz : ∀ j, zeroSmall c j = ((zeroSmall (fun j : Fin 21 => (-inverse21Matrix j 1 : ℚ)) j : ℚ) : ℝ) := by
    intro j
    rw [hq]
    simp only [zeroSmall]
    rw [apply_ite (fun q : ℚ => (q : ℝ))]
    refine if_congr ?_ (by simp) rfl
    rw [← Rat.cast_abs, show (1 / 10 ^ 10 : ℝ) = ((1 / 10 ^ 10 : ℚ) : ℝ) by push_cast; ring, Rat.cast_lt]
  have h3 := (Rat.cast_lt (K := ℝ)).mpr key
  simp only [hz]
  push_cast at h3
  simpa using h3

/-- The program returns in that case. -/
example : ∃ r, ReturnsInt (centred 10) 1 r := by
  obtain ⟨c, hc⟩ := exists_lstsq FDC.rcond (tableInt ℝ (centred 10)) (rhs 21 1)
  refine ⟨.ok (zeroSmall c), ?_⟩
  rw [ReturnsInt, if_pos (by norm_num)]
  exact ⟨c, hc, rfl⟩

/-- C119 fails for offsets that are too close: with offsets `0` and `ε`, `ε ≤ 2^-54`, the coefficients for the first
derivative differentiate `x` as less than `1/2`. -/
theorem C119_refuted_close {ε : ℝ} (h0 : 0 < ε) (h1 : ε ≤ 1 / 2 ^ 54) (r : Py (Fin 2 → ℝ)) (hr : ReturnsFloat ![0, ε] 1 r) :
    ∃ c, r = .ok c ∧ |∑ j, c j * (X : ℝ[X]).eval (![0, ε] j)| ≤ 1 / 2 := by
  rw [ReturnsFloat, if_pos (by norm_num)] at hr
  obtain ⟨c, hc, rfl⟩ := hr
  refine ⟨_, rfl, ?_⟩
  have h2 := hc.norm_le (by unfold rcond; positivity) ![1, 0]
  simp [dotProduct, mulVec, Fin.sum_univ_two, table, rhs, rcond] at h2
  have h3 : c 1 ^ 2 ≤ (2 ^ 53) ^ 2 := by
    have : 0 ≤ c 0 * c 0 := mul_self_nonneg _
    nlinarith
  have h4 : |c 1| ≤ 2 ^ 53 := abs_le_of_sq_le_sq h3 (by positivity)
  have h5 : |zeroSmall c 1| ≤ |c 1| := by
    unfold zeroSmall
    split_ifs
    · simp
    · exact le_rfl
  simp only [Fin.sum_univ_two, eval_X]
  have e : zeroSmall c 0 * ![0, ε] 0 + zeroSmall c 1 * ![0, ε] 1 = zeroSmall c 1 * ε := by simp
  rw [e, abs_mul, abs_of_pos h0]
  calc |zeroSmall c 1| * ε ≤ 2 ^ 53 * (1 / 2 ^ 54) := mul_le_mul (h5.trans h4) h1 h0.le (by positivity)
    _ = 1 / 2 := by norm_num

end Verif
