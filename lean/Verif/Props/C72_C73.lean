import Verif.Props.C14
import Verif.Props.C03_C05
import Verif.Spec.Geometry

/-!
# C72: scale factors and volume element; C73: the operator is the Laplacian
-/

namespace Verif
open FD Spec Init Ops

theorem axial_r (a r t : ℝ) : HasDerivAt (fun r => axial a r t) (a * Real.sinh r * Real.cos t) r :=
  ((Real.hasDerivAt_cosh r).const_mul a).mul_const _

theorem radius_r (a r t : ℝ) : HasDerivAt (fun r => radius a r t) (a * Real.cosh r * Real.sin t) r :=
  ((Real.hasDerivAt_sinh r).const_mul a).mul_const _

theorem axial_t (a r t : ℝ) : HasDerivAt (fun t => axial a r t) (a * Real.cosh r * -Real.sin t) t :=
  (Real.hasDerivAt_cos t).const_mul _

theorem radius_t (a r t : ℝ) : HasDerivAt (fun t => radius a r t) (a * Real.sinh r * Real.cos t) t :=
  (Real.hasDerivAt_sin t).const_mul _

/-- C72: at every grid point the stored coordinates are the prolate spheroidal ones, `h1 = h2` and `h3` are
the lengths of the tangent vectors of the three (orthogonal) coordinate lines, `w` is the volume element (area
of the half-plane cell times the distance from the axis) and `f` is `1/(2 Y²)`. -/
theorem C72_metric {Na Nr : ℕ} {a L : ℝ} (ha : 0 < a) (hL : 0 < L) (k : Fin (Na * Nr)) :
    Z Na Nr a L k = axial a (Xr Na Nr L k) (Xa Na Nr k) ∧
    Y Na Nr a L k = radius a (Xr Na Nr L k) (Xa Na Nr k) ∧
    0 < h1 Na Nr a L k ∧
    h1 Na Nr a L k ^ 2 = normSq (tangentR a (Xr Na Nr L k) (Xa Na Nr k)) ∧
    h1 Na Nr a L k ^ 2 = normSq (tangentA a (Xr Na Nr L k) (Xa Na Nr k)) ∧
    inner2 (tangentR a (Xr Na Nr L k) (Xa Na Nr k)) (tangentA a (Xr Na Nr L k) (Xa Na Nr k)) = 0 ∧
    h3 Na Nr a L k = Y Na Nr a L k ∧
    w Na Nr a L k = area (tangentR a (Xr Na Nr L k) (Xa Na Nr k)) (tangentA a (Xr Na Nr L k) (Xa Na Nr k)) *
      Y Na Nr a L k ∧
    w Na Nr a L k = h1 Na Nr a L k * h1 Na Nr a L k * h3 Na Nr a L k ∧
    f Na Nr a L k = 1 / (2 * Y Na Nr a L k ^ 2) := by
  have hs := Init.sin_pos k
  have hh := Init.sinh_pos hL k
  have e1 := Init.cos_sq k
  have e2 := Init.cosh_sq L k
  have hT : tangentR a (Xr Na Nr L k) (Xa Na Nr k) =
      (a * Real.sinh (Xr Na Nr L k) * Real.cos (Xa Na Nr k), a * Real.cosh (Xr Na Nr L k) * Real.sin (Xa Na Nr k)) := by
    unfold tangentR; rw [(axial_r _ _ _).deriv, (radius_r _ _ _).deriv]
  have hA : tangentA a (Xr Na Nr L k) (Xa Na Nr k) =
      (a * Real.cosh (Xr Na Nr L k) * -Real.sin (Xa Na Nr k), a * Real.sinh (Xr Na Nr L k) * Real.cos (Xa Na Nr k)) := by
    unfold tangentA; rw [(axial_t _ _ _).deriv, (radius_t _ _ _).deriv]
  rw [Z_eq, Y_eq, w_eq, h1_eq, h3_eq, f_eq, hT, hA]
  unfold axial radius
  generalize Real.sin (Xa Na Nr k) = s at *
  generalize Real.sinh (Xr Na Nr L k) = h at *
  have hq : 0 < h ^ 2 + s ^ 2 := by positivity
  have hsq : Real.sqrt (h ^ 2 + s ^ 2) ^ 2 = h ^ 2 + s ^ 2 := Real.sq_sqrt hq.le
  refine ⟨rfl, rfl, mul_pos ha (Real.sqrt_pos.mpr hq), ?_, ?_, ?_, rfl, ?_, ?_, ?_⟩
  · rw [mul_pow, hsq]; simp only [normSq, mul_pow, e1, e2]; ring
  · rw [mul_pow, hsq]; simp only [normSq, mul_pow, neg_sq, e1, e2]; ring
  · simp only [inner2]; ring
  · have : a * h * Real.cos (Xa Na Nr k) * (a * h * Real.cos (Xa Na Nr k)) -
        a * Real.cosh (Xr Na Nr L k) * s * (a * Real.cosh (Xr Na Nr L k) * -s) =
        a ^ 2 * (h ^ 2 * Real.cos (Xa Na Nr k) ^ 2 + Real.cosh (Xr Na Nr L k) ^ 2 * s ^ 2) := by ring
    simp only [area]
    rw [this, e1, e2, abs_of_nonneg]
    · ring
    · have : h ^ 2 * (1 - s ^ 2) + (h ^ 2 + 1) * s ^ 2 = h ^ 2 + s ^ 2 := by ring
      rw [this]; positivity
  · calc _ = a ^ 3 * s * h * (h ^ 2 + s ^ 2) := by ring
      _ = a ^ 3 * s * h * Real.sqrt (h ^ 2 + s ^ 2) ^ 2 := by rw [hsq]
      _ = _ := by ring
  · field_simp
    ring

/-- Concrete case: a 2 × 1 grid has a point with a positive volume element and `f`. -/
example : 0 < w 2 1 1 1 0 ∧ w 2 1 1 1 0 = h1 2 1 1 1 0 * h1 2 1 1 1 0 * Y 2 1 1 1 0 ∧ 0 < Y 2 1 1 1 0 := by
  obtain ⟨-, -, h, -, -, -, h3, -, hw, -⟩ := C72_metric (Na := 2) (Nr := 1) one_pos one_pos 0
  have hY : 0 < Y 2 1 1 1 0 := by
    rw [Y_eq]
    have := Init.sin_pos (Na := 2) (Nr := 1) 0
    have := Init.sinh_pos (Na := 2) (Nr := 1) one_pos 0
    positivity
  rw [h3] at hw
  exact ⟨by rw [hw]; positivity, hw, hY⟩

/-! ## C73 -/

theorem Spec.Smooth.pull_deriv (s : ℝ × ℝ → ℝ) (sZ sY : ℝ × ℝ → ℝ)
    (h : ∀ p, HasFDerivAt s (sZ p • ContinuousLinearMap.fst ℝ ℝ ℝ + sY p • ContinuousLinearMap.snd ℝ ℝ ℝ) p)
    {x y : ℝ → ℝ} {x' y' q : ℝ} (hx : HasDerivAt x x' q) (hy : HasDerivAt y y' q) :
    HasDerivAt (fun q => s (x q, y q)) (sZ (x q, y q) * x' + sY (x q, y q) * y') q := by
  have := (h (x q, y q)).comp_hasDerivAt q (hx.prodMk hy)
  simpa [Function.comp_def] using this

/-- The four derivatives of a function pulled back to the coordinates. -/
theorem Spec.Smooth.pull_derivs (s : Smooth) (a r t : ℝ) :
    let p := (axial a r t, radius a r t)
    deriv (fun r => s.pull a r t) r = s.uZ p * (a * Real.sinh r * Real.cos t) + s.uY p * (a * Real.cosh r * Real.sin t) ∧
    deriv (fun t => s.pull a r t) t = s.uZ p * (a * Real.cosh r * -Real.sin t) + s.uY p * (a * Real.sinh r * Real.cos t) ∧
    deriv (deriv fun r => s.pull a r t) r =
      (s.uZZ p * (a * Real.sinh r * Real.cos t) + s.uZY p * (a * Real.cosh r * Real.sin t)) * (a * Real.sinh r * Real.cos t)
      + s.uZ p * (a * Real.cosh r * Real.cos t)
      + ((s.uZY p * (a * Real.sinh r * Real.cos t) + s.uYY p * (a * Real.cosh r * Real.sin t)) * (a * Real.cosh r * Real.sin t)
      + s.uY p * (a * Real.sinh r * Real.sin t)) ∧
    deriv (deriv fun t => s.pull a r t) t =
      (s.uZZ p * (a * Real.cosh r * -Real.sin t) + s.uZY p * (a * Real.sinh r * Real.cos t)) * (a * Real.cosh r * -Real.sin t)
      + s.uZ p * (a * Real.cosh r * -Real.cos t)
      + ((s.uZY p * (a * Real.cosh r * -Real.sin t) + s.uYY p * (a * Real.sinh r * Real.cos t)) * (a * Real.sinh r * Real.cos t)
      + s.uY p * (a * Real.sinh r * -Real.sin t)) := by
  intro p
  have dr : ∀ r, HasDerivAt (fun r => s.pull a r t) (s.uZ (axial a r t, radius a r t) * (a * Real.sinh r * Real.cos t) +
      s.uY (axial a r t, radius a r t) * (a * Real.cosh r * Real.sin t)) r := fun r =>
    pull_deriv s.u s.uZ s.uY s.du (axial_r a r t) (radius_r a r t)
  have dt : ∀ t, HasDerivAt (fun t => s.pull a r t) (s.uZ (axial a r t, radius a r t) * (a * Real.cosh r * -Real.sin t) +
      s.uY (axial a r t, radius a r t) * (a * Real.sinh r * Real.cos t)) t := fun t =>
    pull_deriv s.u s.uZ s.uY s.du (axial_t a r t) (radius_t a r t)
  refine ⟨(dr r).deriv, (dt t).deriv, ?_, ?_⟩
  · rw [show (deriv fun r => s.pull a r t) = _ from funext fun r => (dr r).deriv]
    have z := pull_deriv s.uZ s.uZZ s.uZY s.dZ (axial_r a r t) (radius_r a r t)
    have y := pull_deriv s.uY s.uZY s.uYY s.dY (axial_r a r t) (radius_r a r t)
    exact ((z.mul (((Real.hasDerivAt_sinh r).const_mul a).mul_const _)).add
      (y.mul (((Real.hasDerivAt_cosh r).const_mul a).mul_const _))).deriv
  · rw [show (deriv fun t => s.pull a r t) = _ from funext fun t => (dt t).deriv]
    have z := pull_deriv s.uZ s.uZZ s.uZY s.dZ (axial_t a r t) (radius_t a r t)
    have y := pull_deriv s.uY s.uZY s.uYY s.dY (axial_t a r t) (radius_t a r t)
    exact ((z.mul ((Real.hasDerivAt_sin t).neg.const_mul _)).add
      (y.mul ((Real.hasDerivAt_cos t).const_mul _))).deriv

/-- The separable operator with exact derivatives is the volume element times the Laplacian. -/
theorem C73_continuous (s : Smooth) {Na Nr : ℕ} {a L : ℝ} (ha : 0 < a) (hL : 0 < L) (i : Fin Na) (j : Fin Nr) :
    Spec.laplacian a (xa Na i) (xr Nr L j)
        (deriv (deriv fun t => s.pull a (xr Nr L j) t) (xa Na i)) (deriv (fun t => s.pull a (xr Nr L j) t) (xa Na i))
        (deriv (deriv fun r => s.pull a r (xa Na i)) (xr Nr L j)) (deriv (fun r => s.pull a r (xa Na i)) (xr Nr L j)) =
      w Na Nr a L (at2 i j) * s.laplace (Z Na Nr a L (at2 i j), Y Na Nr a L (at2 i j)) := by
  obtain ⟨d1, d2, d3, d4⟩ := s.pull_derivs a (xr Nr L j) (xa Na i)
  obtain ⟨eA, eR⟩ := C03_flat L i j (at2 i j) rfl
  have hs := Init.sin_pos (at2 i j)
  have hh := Init.sinh_pos hL (at2 i j)
  have e1 := Init.cos_sq (at2 i j)
  have e2 := Init.cosh_sq L (at2 i j)
  rw [Z_eq, Y_eq, w_eq, d1, d2, d3, d4]
  rw [eA, eR] at *
  simp only [Spec.laplacian, Smooth.laplace, axial, radius]
  generalize Real.sin (xa Na i) = sa at *
  generalize Real.sinh (xr Nr L j) = h at *
  generalize Real.cosh (xr Nr L j) = c at *
  generalize Real.cos (xa Na i) = ca at *
  generalize s.uZ _ = x1
  generalize s.uY _ = x2
  generalize s.uZZ _ = x3
  generalize s.uZY _ = x4
  generalize s.uYY _ = x5
  have : a ^ 3 * sa * h * (sa ^ 2 + h ^ 2) * (x3 + x5 + x2 / (a * h * sa)) =
      a ^ 3 * sa * h * (sa ^ 2 + h ^ 2) * (x3 + x5) + a ^ 2 * (sa ^ 2 + h ^ 2) * x2 := by
    field_simp
  rw [this]
  linear_combination (a ^ 3 * h * sa * (x3 + x5) + a ^ 2 * x2) * (sa ^ 2 * e2 + h ^ 2 * e1)

/-- C73: for every function with second derivatives that is sampled on the grid, `elap` (even functions) and
`olap` (odd functions) give the volume element times its Laplacian up to the errors of the four difference
quotients. -/
theorem C73_laplacian (s : Smooth) {k Na Nr : ℕ} (hk : 0 < k) (hNa : k ≤ Na) (hNr : k ≤ Nr) {a L : ℝ}
    (ha0 : 0 < a) (hL : 0 < L) (ds1 ds2 : Fin (2 * k + 1) → ℝ)
    (hds1 : FDC.Returns (fun i => ((centred k i : ℤ) : ℝ)) 1 (.ok ds1))
    (hds2 : FDC.Returns (fun i => ((centred k i : ℤ) : ℝ)) 2 (.ok ds2)) :
    ∃ R, build Na Nr k a L (centred k) ds1 ds2 = .ok R ∧
      ∀ (f : Fin (Na * Nr) → ℝ), (∀ i j, f (at2 i j) = s.u (Z Na Nr a L (at2 i j), Y Na Nr a L (at2 i j))) →
      ∀ i j, ∃ eA2 eA1 eR2 eR1 : ℝ → ℝ,
        (∀ p : ℝ, eA2 p = diffA ds2 (ha Na) 2 p f i j - deriv (deriv fun t => s.pull a (xr Nr L j) t) (xa Na i) ∧
          eA1 p = diffA ds1 (ha Na) 1 p f i j - deriv (fun t => s.pull a (xr Nr L j) t) (xa Na i) ∧
          eR2 p = diffR ds2 (hr Nr L) 2 p (fun _ => 0) f i j - deriv (deriv fun r => s.pull a r (xa Na i)) (xr Nr L j) ∧
          eR1 p = diffR ds1 (hr Nr L) 1 p (fun _ => 0) f i j - deriv (fun r => s.pull a r (xa Na i)) (xr Nr L j)) ∧
        R.elap.mulVec f (at2 i j) = w Na Nr a L (at2 i j) * s.laplace (Z Na Nr a L (at2 i j), Y Na Nr a L (at2 i j)) +
          Spec.laplacian a (xa Na i) (xr Nr L j) (eA2 1) (eA1 1) (eR2 1) (eR1 1) ∧
        R.olap.mulVec f (at2 i j) = w Na Nr a L (at2 i j) * s.laplace (Z Na Nr a L (at2 i j), Y Na Nr a L (at2 i j)) +
          Spec.laplacian a (xa Na i) (xr Nr L j) (eA2 (-1)) (eA1 (-1)) (eR2 (-1)) (eR1 (-1)) := by
  obtain ⟨R, hR, he, ho⟩ := C14_separable hk hNa hNr a hL ds1 ds2 hds1 hds2
  refine ⟨R, hR, fun f hf i j => ⟨_, _, _, _, fun p => ⟨rfl, rfl, rfl, rfl⟩, ?_, ?_⟩⟩
  · rw [he, ← C73_continuous s ha0 hL]; simp only [Spec.laplacian]; ring
  · rw [ho, ← C73_continuous s ha0 hL]; simp only [Spec.laplacian]; ring

/-- The squared distance from the centre. -/
private noncomputable def sqDist : Smooth where
  u p := p.1 ^ 2 + p.2 ^ 2
  uZ p := 2 * p.1
  uY p := 2 * p.2
  uZZ _ := 2
  uZY _ := 0
  uYY _ := 2
  du p := by
    have h1 : HasFDerivAt (fun p : ℝ × ℝ => p.1) (ContinuousLinearMap.fst ℝ ℝ ℝ) p := hasFDerivAt_fst
    have h2 : HasFDerivAt (fun p : ℝ × ℝ => p.2) (ContinuousLinearMap.snd ℝ ℝ ℝ) p := hasFDerivAt_snd
    refine ((h1.pow 2).add (h2.pow 2)).congr_fderiv ?_
    ext <;> simp
  dZ p := by
    have h1 : HasFDerivAt (fun p : ℝ × ℝ => p.1) (ContinuousLinearMap.fst ℝ ℝ ℝ) p := hasFDerivAt_fst
    refine (h1.const_mul 2).congr_fderiv ?_
    ext <;> simp
  dY p := by
    have h1 : HasFDerivAt (fun p : ℝ × ℝ => p.2) (ContinuousLinearMap.snd ℝ ℝ ℝ) p := hasFDerivAt_snd
    refine (h1.const_mul 2).congr_fderiv ?_
    ext <;> simp

/-- For the squared distance from the centre the operator with exact derivatives gives `6 w` on a `3 × 2` grid. -/
example (i : Fin 3) (j : Fin 2) :
    Spec.laplacian 1 (xa 3 i) (xr 2 4 j)
        (deriv (deriv fun t => sqDist.pull 1 (xr 2 4 j) t) (xa 3 i)) (deriv (fun t => sqDist.pull 1 (xr 2 4 j) t) (xa 3 i))
        (deriv (deriv fun r => sqDist.pull 1 r (xa 3 i)) (xr 2 4 j)) (deriv (fun r => sqDist.pull 1 r (xa 3 i)) (xr 2 4 j)) =
      w 3 2 1 4 (at2 i j) * 6 := by
  rw [C73_continuous sqDist one_pos (by norm_num)]
  have hY : Y 3 2 1 4 (at2 i j) ≠ 0 := by
    rw [Y_eq]
    have hs := Init.sin_pos (at2 i j)
    have hh := Init.sinh_pos (L := 4) (by norm_num) (at2 i j)
    positivity
  congr 1
  simp only [Smooth.laplace, sqDist]
  field_simp
  norm_num

end Verif
