import Verif.Lemmas.ThreeCycle
import Verif.Props.C103

/-!
# C103 with five-point stencils

The matrix of the grid is then not symmetric in any weight: going round three radial points one way and the
other gives different products, however small the step.
-/

namespace Verif
open Spec FD Init Ops

theorem FD.five_point :
    FDC.Returns (fun i => ((centred 2 i : ℤ) : ℝ)) 1 (.ok ![1/12, -2/3, 0, 2/3, -1/12]) := by
  unfold FDC.Returns
  rw [if_pos (by norm_num)]
  refine ⟨![1/12, -2/3, 0, 2/3, -1/12], ?_, ?_⟩
  · rw [isLstsq_iff (FDC.table_det_ne_zero (centred_injective 2))]
    funext n
    fin_cases n <;>
      simp [Matrix.mulVec, dotProduct, Fin.sum_univ_five, FDC.table, FDC.rhs, Nat.factorial, centred] <;> norm_num
  · congr 1
    funext j
    fin_cases j
    · exact (if_neg (by norm_num : ¬ |(1 / 12 : ℝ)| < 1 / 10 ^ 10)).symm
    · exact (if_neg (by rw [abs_of_neg (by norm_num)]; norm_num : ¬ |(-2 / 3 : ℝ)| < 1 / 10 ^ 10)).symm
    · simp [FDC.zeroSmall]
    · exact (if_neg (by norm_num : ¬ |(2 / 3 : ℝ)| < 1 / 10 ^ 10)).symm
    · exact (if_neg (by rw [abs_of_neg (by norm_num)]; norm_num : ¬ |(-1 / 12 : ℝ)| < 1 / 10 ^ 10)).symm

theorem FD.five_point2 :
    FDC.Returns (fun i => ((centred 2 i : ℤ) : ℝ)) 2 (.ok ![-1/12, 4/3, -5/2, 4/3, -1/12]) := by
  unfold FDC.Returns
  rw [if_pos (by norm_num)]
  refine ⟨![-1/12, 4/3, -5/2, 4/3, -1/12], ?_, ?_⟩
  · rw [isLstsq_iff (FDC.table_det_ne_zero (centred_injective 2))]
    funext n
    fin_cases n <;>
      simp [Matrix.mulVec, dotProduct, Fin.sum_univ_five, FDC.table, FDC.rhs, Nat.factorial, centred] <;> norm_num
  · congr 1
    funext j
    have h1 : ¬ |(-1 / 12 : ℝ)| < 1 / 10 ^ 10 := by rw [abs_of_neg (by norm_num)]; norm_num
    fin_cases j
    · exact (if_neg h1).symm
    · exact (if_neg (by norm_num : ¬ |(4 / 3 : ℝ)| < 1 / 10 ^ 10)).symm
    · exact (if_neg (by rw [abs_of_neg (by norm_num)]; norm_num : ¬ |(-5 / 2 : ℝ)| < 1 / 10 ^ 10)).symm
    · exact (if_neg (by norm_num : ¬ |(4 / 3 : ℝ)| < 1 / 10 ^ 10)).symm
    · exact (if_neg h1).symm

namespace Three

/-- Twelve times the radial part on three radial points, times the square of the step. -/
noncomputable def wide (S C : Fin 3 → ℝ) (h : ℝ) : Fin 3 → Fin 3 → ℝ :=
  ![![-14 * S 0 - 8 * h * C 0, 15 * S 0 + 9 * h * C 0, -(S 0) - h * C 0],
    ![15 * S 1 - 7 * h * C 1, -30 * S 1, 16 * S 1 + 8 * h * C 1],
    ![-(S 2) + h * C 2, 16 * S 2 - 8 * h * C 2, -30 * S 2]]

theorem wide_op {L : ℝ} (hL : 0 < L) (a : ℝ) (u : Fin 3 → ℝ) (i : Fin 2) (j : Fin 3) :
    Spec.laplacian a (xa 2 i) (xr 3 L j)
        (diffA (k := 2) (![-1/12, 4/3, -5/2, 4/3, -1/12] : Fin (2 * 2 + 1) → ℝ) (ha 2) 2 1 (fun l => u (ir l)) i j)
        (diffA (k := 2) (![1/12, -2/3, 0, 2/3, -1/12] : Fin (2 * 2 + 1) → ℝ) (ha 2) 1 1 (fun l => u (ir l)) i j)
        (diffR (k := 2) (![-1/12, 4/3, -5/2, 4/3, -1/12] : Fin (2 * 2 + 1) → ℝ) (hr 3 L) 2 1 (fun _ => 0) (fun l => u (ir l)) i j)
        (diffR (k := 2) (![1/12, -2/3, 0, 2/3, -1/12] : Fin (2 * 2 + 1) → ℝ) (hr 3 L) 1 1 (fun _ => 0) (fun l => u (ir l)) i j) =
      a * Real.sin (xa 2 i) / (12 * hr 3 L ^ 2) *
        ∑ j', wide (fun j => Real.sinh (xr 3 L j)) (fun j => Real.cosh (xr 3 L j)) (hr 3 L) j j' * u j' := by
  have hh : hr 3 L ≠ 0 := (hr_pos hL 0).ne'
  have lA : lineA (Na := 2) (Nr := 3) (fun l => u (ir l)) j = fun _ => u j := by
    funext i; unfold lineA; dsimp only; rw [ir_at2]
  have lR : lineR (Na := 2) (Nr := 3) (fun l => u (ir l)) i = u := by
    funext j; unfold lineR; dsimp only; rw [ir_at2]
  unfold Spec.laplacian diffA diffR stencil
  rw [lA, lR]
  have hA : ∀ ds : Fin (2 * 2 + 1) → ℝ, ∑ t, ds t = 0 →
      ∑ t, ds t * extend 1 (reflect 1 fun _ : Fin 2 => u j) (fun _ : Fin 2 => u j) ((i.1 : ℤ) + ((t.1 : ℤ) - (2 : ℕ))) = 0 := by
    intro ds hs
    have : ∀ t : Fin (2 * 2 + 1), extend 1 (reflect 1 fun _ : Fin 2 => u j) (fun _ : Fin 2 => u j)
        ((i.1 : ℤ) + ((t.1 : ℤ) - (2 : ℕ))) = u j := by
      intro t
      fin_cases i <;> fin_cases t <;> norm_num [extend, reflect, val]
    simp only [this, ← Finset.sum_mul, hs, zero_mul]
  rw [hA _ (by simp [Fin.sum_univ_five]; norm_num), hA _ (by simp [Fin.sum_univ_five]; norm_num)]
  simp only [zero_div, mul_zero, add_zero, zero_add]
  generalize Real.sin (xa 2 i) = σ
  have e : ∀ t : Fin 3, Real.sinh (xr 3 L t) = (fun j => Real.sinh (xr 3 L j)) t := fun _ => rfl
  have e' : ∀ t : Fin 3, Real.cosh (xr 3 L t) = (fun j => Real.cosh (xr 3 L j)) t := fun _ => rfl
  rw [e, e']
  generalize (fun j => Real.sinh (xr 3 L j)) = S
  generalize (fun j => Real.cosh (xr 3 L j)) = C
  generalize hr 3 L = h at *
  fin_cases j
  · simp [Fin.sum_univ_five, Fin.sum_univ_three, extend, val, wide]
    field_simp
    ring
  · simp [Fin.sum_univ_five, Fin.sum_univ_three, extend, val, wide]
    field_simp
    ring
  · simp [Fin.sum_univ_five, Fin.sum_univ_three, extend, val, wide]
    field_simp
    ring

/-- The two cycle products of `wide` differ for every small step, and opposite entries have the same sign. -/
theorem wide_cycle {L : ℝ} (hL : 0 < L) (hL' : L ≤ 1 / 5) :
    let b := wide (fun j => Real.sinh (xr 3 L j)) (fun j => Real.cosh (xr 3 L j)) (hr 3 L)
    0 < b 0 1 * b 1 0 ∧ 0 < b 0 2 * b 2 0 ∧ 0 < b 1 2 * b 2 1 ∧ b 0 1 * b 1 2 * b 2 0 ≠ b 0 2 * b 2 1 * b 1 0 := by
  have hh : 0 < hr 3 L := hr_pos hL 0
  have hh' : hr 3 L ≤ 1 / 15 := by rw [hr_eq]; push_cast; linarith
  have hx : ∀ j : Fin 3, xr 3 L j = (j.1 + 1 / 2) * hr 3 L := fun j => by rw [xr_eq, hr_eq]; ring
  generalize hr 3 L = h at *
  have bound : ∀ j : Fin 3, xr 3 L j ≤ Real.sinh (xr 3 L j) ∧ Real.sinh (xr 3 L j) ≤ xr 3 L j * Real.cosh (xr 3 L j) ∧
      1 ≤ Real.cosh (xr 3 L j) ∧ Real.cosh (xr 3 L j) ≤ 72 / 71 := by
    intro j
    have hpos := xr_pos hL j
    refine ⟨Real.self_le_sinh_iff.mpr hpos.le, ?_, Real.one_le_cosh _, ?_⟩
    · obtain ⟨c, hc, he⟩ := exists_deriv_eq_slope Real.sinh hpos Real.continuous_sinh.continuousOn
        Real.differentiable_sinh.differentiableOn
      rw [Real.deriv_sinh, Real.sinh_zero, sub_zero, sub_zero, eq_div_iff hpos.ne'] at he
      have := Real.cosh_le_cosh.mpr (abs_le_abs_of_nonneg hc.1.le hc.2.le)
      nlinarith
    · refine (Real.cosh_le_exp_half_sq _).trans ?_
      have hj : (j.1 : ℝ) ≤ 2 := by exact_mod_cast Nat.lt_succ_iff.mp j.2
      have hle : xr 3 L j ≤ 1 / 6 := by rw [hx]; nlinarith
      have h2 : xr 3 L j ^ 2 / 2 ≤ 1 / 72 := by nlinarith
      refine (Real.exp_le_exp.mpr h2).trans ?_
      have := Real.one_sub_le_exp_neg (1 / 72)
      rw [Real.exp_neg] at this
      have h3 := Real.exp_pos (1 / 72)
      rw [show (72 / 71 : ℝ) = (1 - 1 / 72)⁻¹ by norm_num]
      exact (le_inv_comm₀ h3 (by norm_num)).mpr this
  obtain ⟨a0, b0, c0, d0⟩ := bound 0
  obtain ⟨a1, b1, c1, d1⟩ := bound 1
  obtain ⟨a2, b2, c2, d2⟩ := bound 2
  have x0 : xr 3 L 0 = 1 / 2 * h := by rw [hx]; norm_num
  have x1 : xr 3 L 1 = 3 / 2 * h := by rw [hx]; norm_num
  have x2 : xr 3 L 2 = 5 / 2 * h := by rw [hx]; norm_num
  intro b
  have e01 : b 0 1 = 15 * Real.sinh (xr 3 L 0) + 9 * h * Real.cosh (xr 3 L 0) := rfl
  have e02 : b 0 2 = -Real.sinh (xr 3 L 0) - h * Real.cosh (xr 3 L 0) := rfl
  have e10 : b 1 0 = 15 * Real.sinh (xr 3 L 1) - 7 * h * Real.cosh (xr 3 L 1) := rfl
  have e12 : b 1 2 = 16 * Real.sinh (xr 3 L 1) + 8 * h * Real.cosh (xr 3 L 1) := rfl
  have e20 : b 2 0 = -Real.sinh (xr 3 L 2) + h * Real.cosh (xr 3 L 2) := rfl
  have e21 : b 2 1 = 16 * Real.sinh (xr 3 L 2) - 8 * h * Real.cosh (xr 3 L 2) := rfl
  rw [e01, e02, e10, e12, e20, e21]
  generalize Real.sinh (xr 3 L 0) = S0 at *
  generalize Real.sinh (xr 3 L 1) = S1 at *
  generalize Real.sinh (xr 3 L 2) = S2 at *
  generalize Real.cosh (xr 3 L 0) = C0 at *
  generalize Real.cosh (xr 3 L 1) = C1 at *
  generalize Real.cosh (xr 3 L 2) = C2 at *
  rw [x0] at a0 b0
  rw [x1] at a1 b1
  rw [x2] at a2 b2
  have u0 : h * C0 ≤ h * (72 / 71) := mul_le_mul_of_nonneg_left d0 hh.le
  have u1 : h * C1 ≤ h * (72 / 71) := mul_le_mul_of_nonneg_left d1 hh.le
  have u2 : h * C2 ≤ h * (72 / 71) := mul_le_mul_of_nonneg_left d2 hh.le
  have l0 : h ≤ h * C0 := le_mul_of_one_le_right hh.le c0
  have l1 : h ≤ h * C1 := le_mul_of_one_le_right hh.le c1
  have l2 : h ≤ h * C2 := le_mul_of_one_le_right hh.le c2
  have p01 : 33 / 2 * h ≤ 15 * S0 + 9 * h * C0 := by linarith
  have p12 : 32 * h ≤ 16 * S1 + 8 * h * C1 := by linarith
  have p20 : (5 / 2 - 72 / 71) * h ≤ S2 - h * C2 := by linarith
  have q02 : S0 + h * C0 ≤ 3 / 2 * (72 / 71) * h := by nlinarith
  have q02' : 0 < S0 + h * C0 := by linarith
  have q21 : 16 * S2 - 8 * h * C2 ≤ 32 * (72 / 71) * h := by nlinarith
  have q21' : 0 < 16 * S2 - 8 * h * C2 := by linarith
  have q10 : 15 * S1 - 7 * h * C1 ≤ 31 / 2 * (72 / 71) * h := by nlinarith
  have q10' : 0 < 15 * S1 - 7 * h * C1 := by linarith
  have r01 : 0 < 15 * S0 + 9 * h * C0 := by linarith
  have r12 : 0 < 16 * S1 + 8 * h * C1 := by linarith
  have r20 : 0 < S2 - h * C2 := by linarith
  refine ⟨mul_pos r01 q10', ?_, mul_pos r12 q21', ?_⟩
  · have := mul_pos q02' r20
    calc 0 < (S0 + h * C0) * (S2 - h * C2) := this
      _ = _ := by ring
  · intro heq
    have k1 : 33 / 2 * h * (32 * h) * ((5 / 2 - 72 / 71) * h) ≤ (15 * S0 + 9 * h * C0) * (16 * S1 + 8 * h * C1) * (S2 - h * C2) := by
      gcongr
    have k2 : (S0 + h * C0) * (16 * S2 - 8 * h * C2) * (15 * S1 - 7 * h * C1) ≤
        3 / 2 * (72 / 71) * h * (32 * (72 / 71) * h) * (31 / 2 * (72 / 71) * h) := by
      gcongr
    have k3 : (15 * S0 + 9 * h * C0) * (16 * S1 + 8 * h * C1) * (S2 - h * C2) =
        (S0 + h * C0) * (16 * S2 - 8 * h * C2) * (15 * S1 - 7 * h * C1) := by linear_combination -heq
    have k4 : 0 < h ^ 3 := by positivity
    nlinarith

end Three

/-- C103 fails with five-point stencils: on two angular and three radial points, however small the step, there is a
potential with a complex energy. -/
theorem C103_refuted_wide {a L : ℝ} (ha : 0 < a) (hL : 0 < L) (hL' : L ≤ 1 / 5) {wa : Fin (NC.npts 2 1) → ℝ}
    {wr : Fin (NC.npts 2 2) → ℝ} :
    ∃ ds1 ds2, FDC.Returns (fun i => ((centred 2 i : ℤ) : ℝ)) 1 (.ok ds1) ∧
      FDC.Returns (fun i => ((centred 2 i : ℤ) : ℝ)) 2 (.ok ds2) ∧
      ∃ R, build (NC.npts 2 1) (NC.npts 2 2) 2 a L (centred 2) ds1 ds2 = .ok R ∧
        ∃ v e p, SolvesComplex (G := mkGrid 2 1 2 a L wa wr)
          (Solver.hamiltonian 0 R.elap R.olap (Init.w _ _ a L) (Init.f _ _ a L)) v e p ∧ (∃ k, p k ≠ 0) ∧ e.im ≠ 0 := by
  refine ⟨_, _, FD.five_point, FD.five_point2, ?_⟩
  obtain ⟨R, hR, hlap, -⟩ := C14_separable (k := 2) (Na := NC.npts 2 1) (Nr := NC.npts 2 2) two_pos (by decide) (by decide) a hL
    _ _ FD.five_point FD.five_point2
  refine ⟨R, hR, ?_⟩
  set b := Three.wide (fun j => Real.sinh (xr 3 L j)) (fun j => Real.cosh (xr 3 L j)) (hr 3 L) with hb
  have hs : ∀ i : Fin 2, Real.sin (xa 2 i) = Real.sin (xa 2 0) := by
    intro i
    fin_cases i
    · rfl
    · change Real.sin (xa 2 1) = _
      rw [← Real.sin_pi_sub]
      congr 1
      rw [xa_eq, xa_eq]
      norm_num
      ring
  have hs0 : 0 < Real.sin (xa 2 0) := Real.sin_pos_of_pos_of_lt_pi (xa_pos _) (xa_lt_pi _)
  set w : Fin 3 → ℝ := fun j => a ^ 3 * Real.sin (xa 2 0) * Real.sinh (xr 3 L j) *
    (Real.sin (xa 2 0) ^ 2 + Real.sinh (xr 3 L j) ^ 2) with hwd
  have hw : ∀ k : Fin (2 * 3), Init.w 2 3 a L k = w (ir k) := by
    intro k
    rw [w_eq]
    change a ^ 3 * Real.sin (xa 2 (ia k)) * Real.sinh (xr 3 L (ir k)) *
      (Real.sin (xa 2 (ia k)) ^ 2 + Real.sinh (xr 3 L (ir k)) ^ 2) = _
    rw [hs]
  have hwpos : ∀ j, 0 < w j := by
    intro j
    have := Real.sinh_pos_iff.mpr (xr_pos hL j)
    rw [hwd]; positivity
  set c := 1 / 2 * (a * Real.sin (xa 2 0) / (12 * hr 3 L ^ 2)) with hc
  have hcpos : 0 < c := by
    have := Three.hr_pos hL (0 : Fin 3)
    positivity
  obtain ⟨g1, g2, g3, g4⟩ := Three.wide_cycle hL hL'
  obtain ⟨v, θ, U, hθ, hU, hsol⟩ := Three.complex_of_cycle_weighted c b w hcpos hwpos g1 g2 g3 g4
  have hreal : ∀ (u : Fin 3 → ℝ) (k : Fin (2 * 3)),
      ∑ l, Solver.hamiltonian 0 R.elap R.olap (Init.w 2 3 a L) (Init.f 2 3 a L) k l * u (ir l) = ∑ j', -c * b (ir k) j' * u j' := by
    intro u k
    have h0 : Solver.hamiltonian 0 R.elap R.olap (Init.w 2 3 a L) (Init.f 2 3 a L) = (-(1 / 2) : ℝ) • R.elap := by
      unfold Solver.hamiltonian
      simp
    have h1 := hlap (fun l => u (ir l)) (ia k) (ir k)
    rw [at2_ia_ir] at h1
    have h2 := Three.wide_op hL a u (ia k) (ir k)
    rw [hs] at h2
    rw [h0]
    change ((-(1 / 2) : ℝ) • R.elap).mulVec (fun l => u (ir l)) k = _
    rw [Matrix.smul_mulVec]
    change -(1 / 2) * R.elap.mulVec (fun l => u (ir l)) k = _
    rw [h1]
    refine (congrArg (fun t => -(1 / 2) * t) (Three.wide_op hL a u (ia k) (ir k))).trans ?_
    rw [hs, hc, Finset.mul_sum, Finset.mul_sum]
    exact Finset.sum_congr rfl fun j' _ => by ring
  have hcplx : ∀ k : Fin (2 * 3), ∑ l, ((Solver.hamiltonian 0 R.elap R.olap (Init.w 2 3 a L) (Init.f 2 3 a L) k l : ℝ) : ℂ) * U (ir l) =
      ∑ j', ((-c * b (ir k) j' : ℝ) : ℂ) * U j' := by
    intro k
    apply Complex.ext
    · simp only [Complex.re_sum, Complex.re_ofReal_mul]
      exact hreal (fun j => (U j).re) k
    · simp only [Complex.im_sum, Complex.im_ofReal_mul]
      exact hreal (fun j => (U j).im) k
  refine ⟨fun k => v (ir k), θ * Complex.I, fun k => U (ir k), fun k => ?_, ⟨at2 (0 : Fin 2) (0 : Fin 3), ?_⟩, ?_⟩
  · have h1 := hsol (ir k)
    rw [← hcplx k, ← hw k] at h1
    exact h1
  · change U (ir (at2 (0 : Fin 2) (0 : Fin 3))) ≠ 0
    rw [ir_at2]
    exact hU
  · simpa using hθ.ne'

end Verif
