import Verif.Lemmas.NCComposite
import Verif.Lemmas.NCExact

/-!
# C06, C07: Newton-Cotes weights
-/

namespace Verif
open Polynomial Spec

/-- C06 (part): with at most twelve points the block weights computed by `NC` integrate every polynomial of degree `< N`
over `[0, N-1]` exactly from its values at `0, 1, .., N-1`, and are symmetric.  Missing: more points, where
`np.linalg.lstsq` cuts off small singular values (`C06_refuted`). -/
theorem C06_block_partial {N : ℕ} (hN : N ≤ 12) {w : Fin N → ℝ} (h : NC.IsBlock w) :
    ExactOn (fun j : Fin N => (j.1 : ℝ)) w 0 (N - 1) N ∧ ∀ j, w j.rev = w j :=
  have h := (NC.isBlock_iff hN w).mp h
  ⟨NC.block_exact h, NC.block_symm h⟩

/-- C06 (part): the edge weights, with the weight at `0` that is dropped later, integrate every polynomial
of degree `< N` over `[0, 1/2]` exactly from its values at `0, 1/2, 3/2, ..`, for at most twelve points. -/
theorem C06_edge_partial {N : ℕ} (hN : N ≤ 12) {e : Fin N → ℝ} (h : NC.IsEdge e) :
    ExactOn (fun j : Fin N => if j.1 = 0 then (0 : ℝ) else (j.1 : ℝ) - 1 / 2) e 0 (1 / 2) N :=
  NC.edge_exact ((NC.isEdge_iff hN e).mp h)

/-- C06: such weights exist for every `N` and are unique. -/
theorem C06_exists (N : ℕ) : (∃! w : Fin N → ℝ, NC.IsBlock w) ∧ (∃! e : Fin N → ℝ, NC.IsEdge e) := by
  constructor
  · obtain ⟨w, hw⟩ := Verif.exists_lstsq (NC.rcond N) (NC.blockMatrix N) (NC.blockVector N)
    exact ⟨w, hw, fun v hv => Lstsq.unique hv hw⟩
  · obtain ⟨e, he⟩ := Verif.exists_lstsq (NC.rcond N) (NC.powMatrix (NC.edgePts N)) (NC.edgeRhs N)
    exact ⟨e, he, fun v hv => Lstsq.unique hv he⟩

/-- C06 fails for 13 to 16 points: the weights of the block do not integrate all polynomials of degree `< N`, because
`np.linalg.lstsq` treats singular values below `N * 2^-52` times the largest one as zero. -/
theorem C06_refuted {N : ℕ} (h13 : 13 ≤ N) (h16 : N ≤ 16) {w : Fin N → ℝ} (h : NC.IsBlock w) :
    ¬ ExactOn (fun j : Fin N => (j.1 : ℝ)) w 0 (N - 1) N := by
  intro he
  refine NC.block_not_solves h13 h16 h (funext fun n => ?_)
  have h1 := he (X ^ n.1) (by rw [degree_X_pow]; exact_mod_cast n.2)
  simp only [eval_pow, eval_X, integral_pow] at h1
  simp only [Matrix.mulVec, dotProduct, NC.powMatrix, NC.blockPts, NC.blockRhs]
  rw [← Finset.sum_congr rfl fun j _ => mul_comm _ _, h1]
  simp
  ring

/-- With 17 points the integers wrap around: `16 ** 16` and `16 ** 17` are 0. -/
theorem C06_overflow : NC.blockMatrix 17 (Fin.last 16) (Fin.last 16) = 0 ∧ NC.blockVector 17 (Fin.last 16) = 0 := by
  constructor
  · have : NC.wrap (((Fin.last 16 : Fin 17).1 : ℤ) ^ (Fin.last 16 : Fin 17).1) = 0 := by decide +kernel
    simp only [NC.blockMatrix, this, Int.cast_zero]
  · have : NC.wrap ((((17 : ℕ) : ℤ) - 1) ^ ((Fin.last 16 : Fin 17).1 + 1)) = 0 := by decide +kernel
    simp only [NC.blockVector, this, Int.cast_zero, mul_zero]

/-- Simpson's rule: for `N = 3` the block weights are `1/3, 4/3, 1/3`. -/
example : IsLstsq (NC.powMatrix (NC.blockPts 3)) (NC.blockRhs 3) (![1/3, 4/3, 1/3] : Fin 3 → ℝ) := by
  rw [isLstsq_iff (NC.powMatrix_det_ne_zero (NC.blockPts_injective 3))]
  funext n
  fin_cases n <;>
  simp [Matrix.mulVec, dotProduct, Fin.sum_univ_three, NC.powMatrix, NC.blockPts, NC.blockRhs] <;>
  norm_num

/-- C07 (part): `NC(N, Nm)` with at least two blocks (or `N = 2`) returns `(N-1)*Nm+1` weights
that integrate exactly, from the half-step points `k + 1/2`, every polynomial of degree `< N`
vanishing at both ends of `[0, (N-1)*Nm+1]`, and the weights are symmetric under reversal.
Missing: a single block (`Nm = 1`) with `N ≥ 3`, where the claim is false, see `C07_refuted`, and more than twelve points
per block, where the weights of the blocks are not exact (`C06_refuted`). -/
theorem C07_composite_partial {N Nm : ℕ} (hN : 2 ≤ N) (hN' : N ≤ 12) (hNm : 2 ≤ Nm ∨ (N = 2 ∧ 1 ≤ Nm))
    {r : Py (Fin ((N - 1) * Nm + 1) → ℝ)} (hr : NC.Returns N Nm r) :
    ∃ wi : Fin ((N - 1) * Nm + 1) → ℝ, r = .ok wi ∧
      (∀ q : ℝ[X], q.degree < N → q.eval 0 = 0 → q.eval (((N - 1) * Nm + 1 : ℕ) : ℝ) = 0 →
        ∑ k, wi k * q.eval ((k.1 : ℝ) + 1 / 2) =
          ∫ t in (0 : ℝ)..(((N - 1) * Nm + 1 : ℕ) : ℝ), q.eval t) ∧
      (∀ k, wi k.rev = wi k) := by
  obtain ⟨w, e, hw, he, rfl⟩ := hr.exact hN'
  have hNo := NC.noOverlap_of N Nm hNm
  have hNm1 : 1 ≤ Nm := by omega
  have hle : N - 1 ≤ NC.npts N Nm := by
    unfold NC.npts; have := Nat.mul_le_mul_left (N - 1) hNm1; omega
  have hne : ¬ N - 1 = 0 := by omega
  refine ⟨fun k => (List.range Nm).foldl (NC.addBlock N (NC.ext0 w))
    (NC.edges N Nm (NC.ext0 e)) k.1, ?_, ?_, ?_⟩
  · simp only [NC.npts] at hle
    simp only [NC.assemble, NC.assignable, NC.sliceLen, NC.npts, hne, min_eq_left hle, if_false,
      decide_true, Bool.true_or, not_true]
  · intro q hq h0 h1
    refine Eq.trans ?_ (NC.composite_exact hN hNm1 hNo hw he q hq h0 h1)
    rw [Finset.sum_range]
  · intro k
    refine Eq.trans ?_ (NC.composite_symm hN hNm1 hNo (e := e) hw k.2)
    have h2 : (Fin.rev k).1 = NC.npts N Nm - 1 - k.1 := by
      have := k.2
      simp only [Fin.val_rev, NC.npts]; omega
    simp only [h2]

/-- C07: a single point per block raises `ValueError`. -/
theorem C07_single_point {Nm : ℕ} {r : Py (Fin (NC.npts 1 Nm) → ℝ)} (hr : NC.Returns 1 Nm r) :
    r = .error .valueError := by
  obtain ⟨w, e, -, -, rfl⟩ := hr
  simp [NC.assemble, NC.assignable, NC.sliceLen, NC.npts]

/-- C07: `NC` raises `ValueError` exactly for one point per block, and for no blocks of three or more points. -/
theorem C07_raises {N Nm : ℕ} (hN : 1 ≤ N) {r : Py (Fin (NC.npts N Nm) → ℝ)} (hr : NC.Returns N Nm r) :
    r = .error .valueError ↔ N = 1 ∨ (Nm = 0 ∧ 3 ≤ N) := by
  obtain ⟨w, e, -, -, rfl⟩ := hr
  obtain rfl | h2 : N = 1 ∨ 2 ≤ N := by omega
  · simp [NC.assemble, NC.assignable, NC.sliceLen, NC.npts]
  have hne : ¬ N - 1 = 0 := by omega
  obtain rfl | h1 : Nm = 0 ∨ 1 ≤ Nm := by omega
  · obtain rfl | h3 : N = 2 ∨ 3 ≤ N := by omega
    · simp [NC.assemble, NC.assignable, NC.sliceLen, NC.npts]
    · have a1 : ¬ 1 = N - 1 := by omega
      have a2 : ¬ N - 1 = 1 := by omega
      have a3 : min (N - 1) 1 = 1 := by omega
      simp [NC.assemble, NC.assignable, NC.sliceLen, NC.npts, a1, a2, a3, h3]
  · have hle : N - 1 ≤ (N - 1) * Nm + 1 := by have := Nat.mul_le_mul_left (N - 1) h1; omega
    simp only [NC.assemble, NC.assignable, NC.sliceLen, NC.npts, hne, min_eq_left hle, if_false, decide_true, Bool.true_or,
      not_true]
    constructor
    · intro h; exact nomatch h
    · omega

/-- The weights `NC` assembles for `N = 3`, `Nm = 1`. -/
theorem NC_three_one {r : Py (Fin (NC.npts 3 1) → ℝ)} (hr : NC.Returns 3 1 r) :
    ∃ wi, r = .ok wi ∧ ∀ k : Fin (NC.npts 3 1), wi k = if k.1 = 1 then 95 / 72 else 5 / 8 := by
  obtain ⟨w, e, hw, he, rfl⟩ := hr.exact (by norm_num)
  have e1 := NC.edge_moments he 1 (by norm_num)
  have e2 := NC.edge_moments he 2 (by norm_num)
  have w0 := NC.block_moments hw 0 (by norm_num)
  have w1 := NC.block_moments hw 1 (by norm_num)
  have w2 := NC.block_moments hw 2 (by norm_num)
  simp only [Fin.sum_univ_three, NC.edgePts, NC.blockPts] at e1 e2 w0 w1 w2
  norm_num at e1 e2 w0 w1 w2
  have a2 : e 2 = -1 / 72 := by linarith
  have a1 : e 1 = 7 / 24 := by linarith
  have b2 : w 2 = 1 / 3 := by linarith
  have b1 : w 1 = 4 / 3 := by linarith
  have b0 : w 0 = 1 / 3 := by linarith
  refine ⟨_, rfl, fun k => ?_⟩
  have hk : k.1 < 3 := k.2
  obtain ⟨k, hk'⟩ := k
  simp only at hk
  interval_cases k <;>
    simp [NC.addBlock, NC.edges, NC.npts, NC.ext0, List.range_succ] <;>
    linarith

/-- C07 fails for a single block: with `N = 3`, `Nm = 1` the composite rule gives `145/32` for
`x*(3-x)` over `[0,3]`, whose integral is `9/2`. -/
theorem C07_refuted {r : Py (Fin (NC.npts 3 1) → ℝ)} (hr : NC.Returns 3 1 r) :
    ∃ wi, r = .ok wi ∧ ∃ q : ℝ[X], q.degree < 3 ∧ q.eval 0 = 0 ∧ q.eval 3 = 0 ∧
      ∑ k, wi k * q.eval ((k.1 : ℝ) + 1 / 2) = 145 / 32 ∧
      ∫ t in (0 : ℝ)..3, q.eval t = 9 / 2 := by
  obtain ⟨wi, rfl, hwi⟩ := NC_three_one hr
  refine ⟨wi, rfl, C 3 * X - X ^ 2, ?_, by simp, by simp; norm_num, ?_, ?_⟩
  · refine lt_of_le_of_lt (degree_sub_le _ _) ?_
    rw [degree_X_pow]
    refine max_lt (lt_of_le_of_lt (degree_C_mul_X_le _) (by norm_num)) (by norm_num)
  · simp only [hwi]
    refine (Fin.sum_univ_three (fun k : Fin 3 => (if k.1 = 1 then (95 : ℝ) / 72 else 5 / 8) *
      eval ((k.1 : ℝ) + 1 / 2) (C 3 * X - X ^ 2))).trans ?_
    simp
    norm_num
  · simp only [eval_sub, eval_mul, eval_C, eval_X, eval_pow]
    rw [intervalIntegral.integral_sub (Continuous.intervalIntegrable (by fun_prop) _ _)
      (Continuous.intervalIntegrable (by fun_prop) _ _), intervalIntegral.integral_const_mul,
      integral_pow]
    simp; norm_num

/-- The hypotheses of `C07_composite_partial` and `C07_refuted` are met: `NC` always returns. -/
theorem NC_returns (N Nm : ℕ) : ∃ r : Py (Fin (NC.npts N Nm) → ℝ), NC.Returns N Nm r := NC.exists_returns N Nm

/-- `x*(9-x)` is integrated exactly by `NC(5, 2)` (degree 2 < 5, vanishing at 0 and 9). -/
example : ∃ wi : Fin 9 → ℝ, NC.Returns 5 2 (.ok wi) ∧ ∑ k, wi k * (((k.1 : ℝ) + 1 / 2) * (9 - ((k.1 : ℝ) + 1 / 2))) =
    ∫ t in (0 : ℝ)..9, t * (9 - t) := by
  obtain ⟨r, hr⟩ := NC_returns 5 2
  obtain ⟨wi, rfl, h, -⟩ := C07_composite_partial (N := 5) (Nm := 2) (by norm_num) (by norm_num) (by norm_num) hr
  refine ⟨wi, hr, ?_⟩
  have := h (X * (C 9 - X)) ?_ (by simp) (by simp)
  · simpa using this
  · have h1 : (X * (C 9 - X) : ℝ[X]).degree ≤ 2 := by
      refine (degree_mul_le _ _).trans ?_
      have : (C 9 - X : ℝ[X]).degree ≤ 1 := by
        refine (degree_sub_le _ _).trans (max_le (degree_C_le.trans (by norm_num)) degree_X_le)
      calc (X : ℝ[X]).degree + (C 9 - X : ℝ[X]).degree ≤ 1 + 1 := add_le_add degree_X_le this
        _ = 2 := by norm_num
    exact lt_of_le_of_lt h1 (by norm_num)

end Verif
