import Verif.Lemmas.Legendre
import Verif.Lemmas.Solver
import Verif.Props.C16_C17

/-! # C79: accuracy of the Hartree boundary values -/

namespace Verif
open Init Spec Hartree intervalIntegral

/-- Coulomb potential at `(z, y)` of a unit charge spread over the ring through `(z', y')`. -/
noncomputable def Spec.ringPotential (z y z' y' : ℝ) : ℝ :=
  (∫ φ in (0 : ℝ)..(2 * Real.pi),
    1 / Real.sqrt ((z - z') ^ 2 + (y - y' * Real.cos φ) ^ 2 + (y' * Real.sin φ) ^ 2)) / (2 * Real.pi)

/-- Multipoles 0 to `N - 1` of a ring. -/
theorem ring_multipole (z y z' y' R : ℝ) (N : ℕ) (hR : Real.sqrt (z' ^ 2 + y' ^ 2) ≤ R)
    (h : R < Real.sqrt (z ^ 2 + y ^ 2)) :
    |(∑ m ∈ Finset.range N, Real.sqrt (z' ^ 2 + y' ^ 2) ^ m * legendre m (z' / Real.sqrt (z' ^ 2 + y' ^ 2)) *
        legendre m (z / Real.sqrt (z ^ 2 + y ^ 2)) / Real.sqrt (z ^ 2 + y ^ 2) ^ (m + 1)) - Spec.ringPotential z y z' y'| ≤
      (R / Real.sqrt (z ^ 2 + y ^ 2)) ^ N / (Real.sqrt (z ^ 2 + y ^ 2) - R) := by
  set ρ := Real.sqrt (z ^ 2 + y ^ 2) with hρ
  set ρ' := Real.sqrt (z' ^ 2 + y' ^ 2) with hρ'
  have q : ρ ^ 2 = z ^ 2 + y ^ 2 := Real.sq_sqrt (by positivity)
  have q' : ρ' ^ 2 = z' ^ 2 + y' ^ 2 := Real.sq_sqrt (by positivity)
  have hρ0 : 0 < ρ := lt_of_le_of_lt ((Real.sqrt_nonneg _).trans hR) h
  have hρ'0 : 0 ≤ ρ' := Real.sqrt_nonneg _
  have hpi := Real.pi_pos
  set g : ℝ → ℝ := fun φ => (z * z' + y * y' * Real.cos φ) / (ρ * ρ') with hg
  set t := ρ' / ρ with ht
  have ht0 : 0 ≤ t := div_nonneg hρ'0 hρ0.le
  have ht1 : t < 1 := by rw [ht, div_lt_one hρ0]; linarith
  have hgt : ∀ φ, g φ * ρ' * ρ = z * z' + y * y' * Real.cos φ := by
    intro φ
    by_cases h0 : ρ' = 0
    · rw [h0] at q'
      have e1 : z' = 0 := by nlinarith [sq_nonneg z', sq_nonneg y']
      have e2 : y' = 0 := by nlinarith [sq_nonneg z', sq_nonneg y']
      rw [h0, e1, e2]; ring
    · simp only [hg]; field_simp
  have hd : ∀ φ, (z - z') ^ 2 + (y - y' * Real.cos φ) ^ 2 + (y' * Real.sin φ) ^ 2 = ρ ^ 2 * (1 - 2 * g φ * t + t ^ 2) := by
    intro φ
    have h1 := Real.sin_sq_add_cos_sq φ
    have h2 : ρ ^ 2 * (1 - 2 * g φ * t + t ^ 2) = ρ ^ 2 - 2 * (g φ * ρ' * ρ) + ρ' ^ 2 := by
      rw [ht]; field_simp
    rw [h2, hgt, q, q']
    linear_combination y' ^ 2 * h1
  have hg1 : ∀ φ, g φ ^ 2 ≤ 1 := by
    intro φ
    by_cases h0 : ρ' = 0
    · simp [hg, h0]
    · have hp : 0 < ρ' := lt_of_le_of_ne hρ'0 (Ne.symm h0)
      simp only [hg]
      rw [div_pow, div_le_one (by positivity), mul_pow, q, q']
      have hc := Real.cos_sq_le_one φ
      nlinarith [sq_nonneg (z * y' * Real.cos φ - y * z'), mul_nonneg (add_nonneg (sq_nonneg z) (sq_nonneg y))
        (mul_nonneg (sq_nonneg y') (sub_nonneg.mpr hc))]
  have hgc : Continuous g := by simp only [hg]; fun_prop
  have hlc : ∀ m, Continuous (legendre m) := by
    intro m
    induction m using Nat.twoStepInduction with
    | zero => simp only [legendre]; fun_prop
    | one => simp only [legendre]; fun_prop
    | more m h1 h2 => simp only [legendre]; fun_prop
  have hpos : ∀ φ, 0 < (z - z') ^ 2 + (y - y' * Real.cos φ) ^ 2 + (y' * Real.sin φ) ^ 2 := by
    intro φ
    rw [hd]
    have h1 : g φ ≤ 1 := by nlinarith [hg1 φ, sq_nonneg (g φ - 1), sq_nonneg (g φ + 1)]
    have h2 : (1 - t) ^ 2 ≤ 1 - 2 * g φ * t + t ^ 2 := by nlinarith
    have h3 : 0 < (1 - t) ^ 2 := by have := sub_pos.mpr ht1; positivity
    have : 0 < ρ ^ 2 := by positivity
    exact mul_pos this (by linarith)
  set S : ℝ → ℝ := fun φ => ∑ m ∈ Finset.range N, ρ' ^ m / ρ ^ (m + 1) * legendre m (g φ) with hS
  set V : ℝ → ℝ := fun φ => 1 / Real.sqrt ((z - z') ^ 2 + (y - y' * Real.cos φ) ^ 2 + (y' * Real.sin φ) ^ 2) with hV
  have hVc : Continuous V := by
    simp only [hV]
    refine continuous_const.div (by fun_prop) fun φ => (Real.sqrt_pos.mpr (hpos φ)).ne'
  have hmc : ∀ m, Continuous fun φ => legendre m (g φ) := fun m => (hlc m).comp hgc
  have hSc : Continuous S := by
    simp only [hS]
    exact continuous_finsetSum _ fun m _ => continuous_const.mul (hmc m)
  have hpt : ∀ φ, ‖S φ - V φ‖ ≤ (R / ρ) ^ N / (ρ - R) := by
    intro φ
    have h1 := Legendre.gen_error (g φ) t (hg1 φ) ht0 ht1 N
    have h2 : V φ = 1 / ρ * (1 / Real.sqrt (1 - 2 * g φ * t + t ^ 2)) := by
      simp only [hV]
      rw [hd, Real.sqrt_mul (sq_nonneg ρ), Real.sqrt_sq hρ0.le]
      field_simp
    have h3 : S φ = 1 / ρ * ∑ n ∈ Finset.range N, legendre n (g φ) * t ^ n := by
      simp only [hS]
      rw [Finset.mul_sum]
      refine Finset.sum_congr rfl fun m _ => ?_
      rw [ht, div_pow, pow_succ]
      field_simp
    rw [h2, h3, ← mul_sub, norm_mul, Real.norm_eq_abs, Real.norm_eq_abs, abs_sub_comm, abs_of_pos (by positivity)]
    calc 1 / ρ * _ ≤ 1 / ρ * (t ^ N / (1 - t)) := mul_le_mul_of_nonneg_left h1 (by positivity)
      _ = t ^ N / (ρ - ρ') := by
        rw [ht]
        have : ρ - ρ' ≠ 0 := by linarith
        have : 1 - ρ' / ρ ≠ 0 := by rw [← ht]; linarith
        field_simp
      _ ≤ (R / ρ) ^ N / (ρ - R) := by
        have hle : t ≤ R / ρ := div_le_div_of_nonneg_right hR hρ0.le
        exact div_le_div₀ (pow_nonneg (ht0.trans hle) N) (pow_le_pow_left₀ ht0 hle N) (by linarith) (by linarith)
  have hint : (∫ φ in (0 : ℝ)..(2 * Real.pi), S φ - V φ) =
      2 * Real.pi * ((∑ m ∈ Finset.range N, ρ' ^ m * legendre m (z' / ρ') * legendre m (z / ρ) / ρ ^ (m + 1)) -
        Spec.ringPotential z y z' y') := by
    rw [integral_sub (hSc.intervalIntegrable _ _) (hVc.intervalIntegrable _ _)]
    have e1 : (∫ φ in (0 : ℝ)..(2 * Real.pi), S φ) =
        2 * Real.pi * ∑ m ∈ Finset.range N, ρ' ^ m * legendre m (z' / ρ') * legendre m (z / ρ) / ρ ^ (m + 1) := by
      simp only [hS]
      rw [integral_finsetSum (f := fun m φ => ρ' ^ m / ρ ^ (m + 1) * legendre m (g φ)) fun m _ => (continuous_const.mul (hmc m)).intervalIntegrable _ _, Finset.mul_sum]
      refine Finset.sum_congr rfl fun m _ => ?_
      have ha := Legendre.addition z y z' y' m
      rw [← hρ, ← hρ'] at ha
      have hr : ∀ φ, ρ' ^ m / ρ ^ (m + 1) * legendre m (g φ) =
          1 / (ρ ^ m * ρ ^ (m + 1)) * ((ρ * ρ') ^ m * legendre m ((z * z' + y * y' * Real.cos φ) / (ρ * ρ'))) := by
        intro φ
        rw [mul_pow]
        simp only [hg]
        have : ρ ^ m ≠ 0 := by positivity
        field_simp
      simp only [hr]
      rw [integral_const_mul, ha]
      have : ρ ^ m ≠ 0 := by positivity
      field_simp
    have e2 : (∫ φ in (0 : ℝ)..(2 * Real.pi), V φ) = 2 * Real.pi * Spec.ringPotential z y z' y' := by
      unfold Spec.ringPotential
      simp only [hV]
      field_simp
    rw [e1, e2, mul_sub]
  have hb := norm_integral_le_of_norm_le_const (a := 0) (b := 2 * Real.pi) (f := fun φ => S φ - V φ) (C := (R / ρ) ^ N / (ρ - R))
    fun φ _ => hpt φ
  rw [hint, norm_mul, Real.norm_eq_abs, Real.norm_eq_abs, sub_zero, abs_of_pos (by positivity : 0 < 2 * Real.pi), mul_comm] at hb
  exact le_of_mul_le_mul_right hb (by positivity)

/-- C79: at every point of the boundary region the multipole sum used by `v_hartree` (the right-hand side of
`C16_poisson_partial`) agrees with the exact Coulomb potential of the quadrature's ring charges, up to
`(R/ρ)^8/(ρ-R)` times the total absolute charge, for a density confined to the ball of radius `R < ρ`. -/
theorem C79_boundary (H : HGrid) (ha : 0 < H.a) (n : H.Fld) (k : Fin (H.Na * H.bcN)) (R ρ : ℝ)
    (hρ : ρ = Real.sqrt ((H.a * Real.cosh (H.bXr k) * Real.cos (H.bXa k)) ^ 2 +
      (H.a * Real.sinh (H.bXr k) * Real.sin (H.bXa k)) ^ 2)) (hR : R < ρ)
    (hn : ∀ q, n q ≠ 0 → Real.sqrt (Init.Z H.Na H.Nr H.a H.L q ^ 2 + Init.Y H.Na H.Nr H.a H.L q ^ 2) ≤ R) :
    |H.bVh n k - H.grid.integ (fun q => n q * Spec.ringPotential (H.a * Real.cosh (H.bXr k) * Real.cos (H.bXa k))
        (H.a * Real.sinh (H.bXr k) * Real.sin (H.bXa k)) (Init.Z H.Na H.Nr H.a H.L q) (Init.Y H.Na H.Nr H.a H.L q))| ≤
      (R / ρ) ^ 8 / (ρ - R) * ∑ q, |2 * Real.pi * hr H.Nr H.L * Init.ha H.Na * (H.wi q * w H.Na H.Nr H.a H.L q * n q)| := by
  rw [HGrid.bVh_multipole H ha]
  set z := H.a * Real.cosh (H.bXr k) * Real.cos (H.bXa k)
  set y := H.a * Real.sinh (H.bXr k) * Real.sin (H.bXa k)
  have key : ∀ q, |n q * ((∑ m ∈ Finset.range 8, Real.sqrt (Init.Z H.Na H.Nr H.a H.L q ^ 2 + Init.Y H.Na H.Nr H.a H.L q ^ 2) ^ m *
      legendre m (Init.Z H.Na H.Nr H.a H.L q / Real.sqrt (Init.Z H.Na H.Nr H.a H.L q ^ 2 + Init.Y H.Na H.Nr H.a H.L q ^ 2)) *
        legendre m (z / ρ) / ρ ^ (m + 1)) - Spec.ringPotential z y (Init.Z H.Na H.Nr H.a H.L q) (Init.Y H.Na H.Nr H.a H.L q))| ≤
      |n q| * ((R / ρ) ^ 8 / (ρ - R)) := by
    intro q
    by_cases h0 : n q = 0
    · simp [h0]
    · rw [abs_mul]
      have := ring_multipole z y _ _ R 8 (hn q h0) (hρ ▸ hR)
      rw [← hρ] at this
      exact mul_le_mul_of_nonneg_left this (abs_nonneg _)
  have hsum : Spec.multipole (Spec.moment H.grid (Init.Z H.Na H.Nr H.a H.L) (Init.Y H.Na H.Nr H.a H.L) n) z y =
      H.grid.integ fun q => n q * ∑ m ∈ Finset.range 8,
        Real.sqrt (Init.Z H.Na H.Nr H.a H.L q ^ 2 + Init.Y H.Na H.Nr H.a H.L q ^ 2) ^ m *
        legendre m (Init.Z H.Na H.Nr H.a H.L q / Real.sqrt (Init.Z H.Na H.Nr H.a H.L q ^ 2 + Init.Y H.Na H.Nr H.a H.L q ^ 2)) *
        legendre m (z / ρ) / ρ ^ (m + 1) := by
    unfold Spec.multipole Spec.moment
    rw [← hρ]
    have e : ∀ q, n q * (∑ m ∈ Finset.range 8,
        Real.sqrt (Init.Z H.Na H.Nr H.a H.L q ^ 2 + Init.Y H.Na H.Nr H.a H.L q ^ 2) ^ m *
        legendre m (Init.Z H.Na H.Nr H.a H.L q / Real.sqrt (Init.Z H.Na H.Nr H.a H.L q ^ 2 + Init.Y H.Na H.Nr H.a H.L q ^ 2)) *
        legendre m (z / ρ) / ρ ^ (m + 1)) = ∑ m ∈ Finset.range 8, legendre m (z / ρ) / ρ ^ (m + 1) *
        (Real.sqrt (Init.Z H.Na H.Nr H.a H.L q ^ 2 + Init.Y H.Na H.Nr H.a H.L q ^ 2) ^ m *
        legendre m (Init.Z H.Na H.Nr H.a H.L q / Real.sqrt (Init.Z H.Na H.Nr H.a H.L q ^ 2 + Init.Y H.Na H.Nr H.a H.L q ^ 2)) * n q) := by
      intro q
      rw [Finset.mul_sum]
      refine Finset.sum_congr rfl fun m _ => ?_
      ring
    simp only [e]
    rw [Grid.integ_sum H.grid]
    refine Finset.sum_congr rfl fun m _ => ?_
    rw [Grid.integ_smul H.grid]
    ring
  rw [hsum]
  unfold Grid.integ
  rw [← mul_sub, ← Finset.sum_sub_distrib, abs_mul, Finset.mul_sum]
  simp only [abs_mul]
  calc _ ≤ |2 * H.grid.pi * H.grid.hr * H.grid.ha| * ∑ q, |H.wi q| * |w H.Na H.Nr H.a H.L q| * (|n q| * ((R / ρ) ^ 8 / (ρ - R))) := by
        simp only [abs_mul]
        refine mul_le_mul_of_nonneg_left ((Finset.abs_sum_le_sum_abs _ _).trans (Finset.sum_le_sum fun q _ => ?_)) (by positivity)
        rw [← mul_sub, ← mul_sub, abs_mul, abs_mul]
        exact mul_le_mul_of_nonneg_left (key q) (by positivity)
    _ = _ := by
        rw [Finset.mul_sum]
        refine Finset.sum_congr rfl fun q _ => ?_
        simp only [abs_mul]
        ring

/-- C79, for a factorisation without exchanges as in `C16_poisson_partial`: `v_hartree` solves the discrete Poisson
equation with boundary values `B` that approximate the Coulomb potential of the quadrature charges. -/
theorem C79_poisson_partial (H : HGrid) (ha : 0 < H.a)
    (elap : Matrix (Fin (H.Na * H.Nr)) (Fin (H.Na * H.Nr)) ℝ)
    (hlu : IsSplu elap 1 1 H.Llap H.Ulap) (p : ℕ) (hp : p = 1 ∨ p = 2)
    (n : Fin p → H.Fld) :
    ∃ vh, ∃ B : Fin (H.Na * H.bcN) → ℝ, H.vHartree p n = .ok vh ∧
      (∀ s i j, elap.mulVec (vh s) (at2 i j) + val (lineR (H.blap.mulVec B) i) ((j.1 : ℤ) - (H.Nr - H.bcN)) =
        -4 * Real.pi * w H.Na H.Nr H.a H.L (at2 i j) * ∑ s, n s (at2 i j)) ∧
      ∀ k (R ρ : ℝ), ρ = Real.sqrt ((H.a * Real.cosh (H.bXr k) * Real.cos (H.bXa k)) ^ 2 +
          (H.a * Real.sinh (H.bXr k) * Real.sin (H.bXa k)) ^ 2) → R < ρ →
        (∀ q, ∑ s, n s q ≠ 0 → Real.sqrt (Init.Z H.Na H.Nr H.a H.L q ^ 2 + Init.Y H.Na H.Nr H.a H.L q ^ 2) ≤ R) →
        |B k - H.grid.integ (fun q => (∑ s, n s q) * Spec.ringPotential (H.a * Real.cosh (H.bXr k) * Real.cos (H.bXa k))
          (H.a * Real.sinh (H.bXr k) * Real.sin (H.bXa k)) (Init.Z H.Na H.Nr H.a H.L q) (Init.Y H.Na H.Nr H.a H.L q))| ≤
        (R / ρ) ^ 8 / (ρ - R) * ∑ q, |2 * Real.pi * hr H.Nr H.L * Init.ha H.Na * (H.wi q * w H.Na H.Nr H.a H.L q * ∑ s, n s q)| := by
  obtain ⟨vh, h1, h2⟩ := C16_poisson_partial H ha elap hlu p hp n
  refine ⟨vh, fun q => H.bVh (fun k => ∑ s, n s k) q, h1, fun s i j => ?_, fun k R ρ hρ hR hn => ?_⟩
  · rw [← h2 s i j]
    simp only [H.bVh_multipole ha]
    rfl
  · exact C79_boundary H ha _ k R ρ hρ hR hn

/-- A unit point charge at the midpoint of the nuclei: the ring degenerates and its potential is `1/ρ`. -/
example (z y : ℝ) : Spec.ringPotential z y 0 0 = 1 / Real.sqrt (z ^ 2 + y ^ 2) := by
  unfold Spec.ringPotential
  have := Real.pi_pos
  simp only [sub_zero, zero_mul, add_zero, ne_eq, OfNat.ofNat_ne_zero, not_false_eq_true, zero_pow,
    intervalIntegral.integral_const, smul_eq_mul]
  field_simp

/-- A charge at `z' = 1` on the axis, seen from `z = 3`: the exact potential is `1/2`, the eight multipoles give
`1/3 + 1/9 + … + 1/3^8`, and the error is within the bound `(1/3)^8/2`. -/
example : Spec.ringPotential 3 0 1 0 = 1 / 2 := by
  unfold Spec.ringPotential
  have := Real.pi_pos
  have e : Real.sqrt (4 : ℝ) = 2 := by rw [show (4 : ℝ) = 2 ^ 2 by norm_num]; exact Real.sqrt_sq (by norm_num)
  norm_num [e]
  field_simp

end Verif
