import Verif.Lemmas.Parts
import Verif.Props.C15
import Verif.Props.C72_C73
import Mathlib.Analysis.SpecialFunctions.Trigonometric.Sinc

/-! # C80, C81: gradient and divergence operators -/

namespace Verif
open FD Spec Init Ops Filter Topology

/-- The divergence operators: odd difference quotients of `h Y u` over the volume element. -/
theorem Ops.div_eq {k Na Nr : ℕ} (hk : 0 < k) (hNa : k ≤ Na) (hNr : k ≤ Nr) {a L : ℝ} (ha0 : 0 < a)
    (hL : 0 < L) (ds1 ds2 : Fin (2 * k + 1) → ℝ)
    (hds1 : FDC.Returns (fun i => ((centred k i : ℤ) : ℝ)) 1 (.ok ds1))
    (hds2 : FDC.Returns (fun i => ((centred k i : ℤ) : ℝ)) 2 (.ok ds2)) :
    ∃ R, build Na Nr k a L (centred k) ds1 ds2 = .ok R ∧
      (∀ f i j, R.grada.mulVec f (at2 i j) = diffA ds1 (ha Na) 1 1 f i j / h1 Na Nr a L (at2 i j)) ∧
      (∀ f i j, R.gradr.mulVec f (at2 i j) = diffR ds1 (hr Nr L) 1 1 (fun _ => 0) f i j / h1 Na Nr a L (at2 i j)) ∧
      (∀ u i j, R.diva.mulVec u (at2 i j) =
        diffA ds1 (ha Na) 1 (-1) (fun q => h1 Na Nr a L q * Y Na Nr a L q * u q) i j / w Na Nr a L (at2 i j)) ∧
      (∀ u i j, R.divr.mulVec u (at2 i j) =
        diffR ds1 (hr Nr L) 1 (-1) (fun _ => 0) (fun q => h1 Na Nr a L q * Y Na Nr a L q * u q) i j /
          w Na Nr a L (at2 i j)) := by
  obtain ⟨D, E, hD, hE, hB, a1, a2, a3, a4, -⟩ := Ops.build_ok hk hNa hNr a hL ds1 ds2 hds1 hds2
  have hdv : ∀ (d : Fin (Na * Nr) → ℝ) (u : Fin (Na * Nr) → ℝ), (diag d).mulVec u = fun q => d q * u q := fun d u => by
    funext q; exact sum_diag d u q
  have h3Y : ∀ q, h3 Na Nr a L q = Y Na Nr a L q := fun q => (C72_metric ha0 hL q).2.2.2.2.2.2.1
  have hw : ∀ q, h1 Na Nr a L q * h1 Na Nr a L q * Y Na Nr a L q = w Na Nr a L q := fun q => by
    rw [← h3Y]; exact ((C72_metric ha0 hL q).2.2.2.2.2.2.2.2.1).symm
  refine ⟨_, hB, fun f i j => ?_, fun f i j => ?_, fun u i j => ?_, fun u i j => ?_⟩
  · refine (gradA_mulVec _ _ f i j).trans ?_
    simp only [realInput, a1]; ring
  · refine (gradR_mulVec _ _ f i j).trans ?_
    simp only [realInput, a3]; ring
  · simp only [operators]
    rw [← Matrix.mulVec_mulVec, hdv]
    refine (gradA_mulVec _ _ _ i j).trans ?_
    simp only [realInput, a2, h3Y, hw]; ring
  · simp only [operators]
    rw [← Matrix.mulVec_mulVec, hdv]
    refine (gradR_mulVec _ _ _ i j).trans ?_
    simp only [realInput, a4, h3Y, hw]; ring

/-- C80: the divergence is minus the adjoint of the gradient with respect to the volume element, for the two
components separately, for every scalar field and every vector field. -/
theorem C80_green {k Na Nr : ℕ} (hk : 0 < k) (hNa : k ≤ Na) (hNr : k ≤ Nr) {a L : ℝ} (ha0 : 0 < a)
    (hL : 0 < L) (ds1 ds2 : Fin (2 * k + 1) → ℝ)
    (hds1 : FDC.Returns (fun i => ((centred k i : ℤ) : ℝ)) 1 (.ok ds1))
    (hds2 : FDC.Returns (fun i => ((centred k i : ℤ) : ℝ)) 2 (.ok ds2)) :
    ∃ R, build Na Nr k a L (centred k) ds1 ds2 = .ok R ∧ ∀ f u : Fin (Na * Nr) → ℝ,
      ∑ q, w Na Nr a L q * (f q * R.diva.mulVec u q) = -∑ q, w Na Nr a L q * (R.grada.mulVec f q * u q) ∧
      ∑ q, w Na Nr a L q * (f q * R.divr.mulVec u q) = -∑ q, w Na Nr a L q * (R.gradr.mulVec f q * u q) := by
  obtain ⟨R, hB, g1, g2, d1, d2⟩ := Ops.div_eq hk hNa hNr ha0 hL ds1 ds2 hds1 hds2
  have p1 : ∀ i, ds1 i.rev = (-1) * ds1 i := fun i => by
    have := C10_parity _ (centred_injective k) (centred_rev k) 1 ds1 hds1 i
    rwa [pow_one] at this
  have hh : ∀ q, 0 < h1 Na Nr a L q := fun q => (C72_metric ha0 hL q).2.2.1
  have hY : ∀ q, 0 < Y Na Nr a L q := fun q => by
    rw [Y_eq]
    have := Init.sin_pos q
    have := Init.sinh_pos hL q
    positivity
  have hw : ∀ q, w Na Nr a L q = h1 Na Nr a L q * h1 Na Nr a L q * Y Na Nr a L q := fun q => by
    rw [← (C72_metric ha0 hL q).2.2.2.2.2.2.1]; exact (C72_metric ha0 hL q).2.2.2.2.2.2.2.2.1
  have hw0 : ∀ q, w Na Nr a L q ≠ 0 := fun q => by
    rw [hw]; have := hh q; have := hY q; positivity
  refine ⟨R, hB, fun f u => ⟨?_, ?_⟩⟩
  · rw [Verif.sum_grid, Verif.sum_grid, Finset.sum_comm, Finset.sum_comm (γ := Fin Na), ← Finset.sum_neg_distrib]
    refine Finset.sum_congr rfl fun j _ => ?_
    have key := parts ds1 p1 1 (lineA f j) (lineA (fun q => h1 Na Nr a L q * Y Na Nr a L q * u q) j)
    calc _ = (∑ i, lineA f j i * stencil ds1 (extend (-1) (reflect (-1)
            (lineA (fun q => h1 Na Nr a L q * Y Na Nr a L q * u q) j))
            (lineA (fun q => h1 Na Nr a L q * Y Na Nr a L q * u q) j)) i.1) / ha Na := by
          rw [Finset.sum_div]
          refine Finset.sum_congr rfl fun i _ => ?_
          have := hw0 (at2 i j)
          rw [d1]; unfold diffA lineA; field_simp
      _ = _ := by
          rw [key, neg_div, Finset.sum_div]
          congr 1
          refine Finset.sum_congr rfl fun i _ => ?_
          have := (hh (at2 i j)).ne'
          rw [g1, hw]; unfold diffA lineA; field_simp
  · rw [Verif.sum_grid, Verif.sum_grid, ← Finset.sum_neg_distrib]
    refine Finset.sum_congr rfl fun i _ => ?_
    have key := parts ds1 p1 0 (lineR f i) (lineR (fun q => h1 Na Nr a L q * Y Na Nr a L q * u q) i)
    have hz : ∀ s (v : Fin Nr → ℝ), s = 0 → reflect s v = fun _ => 0 := fun s v hs => by
      funext z; unfold reflect; rw [hs, zero_mul]
    rw [hz _ _ neg_zero, hz _ _ rfl] at key
    calc _ = (∑ j, lineR f i j * stencil ds1 (extend (-1) (fun _ => 0)
            (lineR (fun q => h1 Na Nr a L q * Y Na Nr a L q * u q) i)) j.1) / hr Nr L := by
          rw [Finset.sum_div]
          refine Finset.sum_congr rfl fun j _ => ?_
          have := hw0 (at2 i j)
          rw [d2]; unfold diffR lineR; field_simp
      _ = _ := by
          rw [key, neg_div, Finset.sum_div]
          congr 1
          refine Finset.sum_congr rfl fun j _ => ?_
          have := (hh (at2 i j)).ne'
          rw [g2, hw]; unfold diffR lineR; field_simp

/-- An axially symmetric vector field without azimuthal component, with the partial derivatives of its two
components. -/
structure Spec.Vec where
  vZ : ℝ × ℝ → ℝ
  vY : ℝ × ℝ → ℝ
  zZ : ℝ × ℝ → ℝ
  zY : ℝ × ℝ → ℝ
  yZ : ℝ × ℝ → ℝ
  yY : ℝ × ℝ → ℝ
  dZ : ∀ p, HasFDerivAt vZ (zZ p • ContinuousLinearMap.fst ℝ ℝ ℝ + zY p • ContinuousLinearMap.snd ℝ ℝ ℝ) p
  dY : ∀ p, HasFDerivAt vY (yZ p • ContinuousLinearMap.fst ℝ ℝ ℝ + yY p • ContinuousLinearMap.snd ℝ ℝ ℝ) p

/-- Divergence in cylindrical coordinates. -/
noncomputable def Spec.Vec.div (v : Vec) (p : ℝ × ℝ) : ℝ := v.zZ p + v.yY p + v.vY p / p.2

/-- The field at the point with coordinates `(r, t)`. -/
noncomputable def Spec.Vec.at (v : Vec) (a r t : ℝ) : ℝ × ℝ :=
  (v.vZ (axial a r t, radius a r t), v.vY (axial a r t, radius a r t))

/-- Distance from the axis times the component along the angular (radial) coordinate line, times the scale factor. -/
noncomputable def Spec.Vec.fluxA (v : Vec) (a r t : ℝ) : ℝ := radius a r t * inner2 (v.at a r t) (tangentA a r t)
noncomputable def Spec.Vec.fluxR (v : Vec) (a r t : ℝ) : ℝ := radius a r t * inner2 (v.at a r t) (tangentR a r t)

theorem Spec.tangentA_eq (a r t : ℝ) : tangentA a r t = (a * Real.cosh r * -Real.sin t, a * Real.sinh r * Real.cos t) := by
  unfold tangentA; rw [(axial_t a r t).deriv, (radius_t a r t).deriv]

theorem Spec.tangentR_eq (a r t : ℝ) : tangentR a r t = (a * Real.sinh r * Real.cos t, a * Real.cosh r * Real.sin t) := by
  unfold tangentR; rw [(axial_r a r t).deriv, (radius_r a r t).deriv]

/-- The two fluxes have the divergence of the field times the volume element as the sum of their derivatives. -/
theorem Spec.Vec.div_flux (v : Vec) {a r t : ℝ} (ha : 0 < a) (hr : 0 < Real.sinh r) (ht : 0 < Real.sin t) :
    deriv (fun t => v.fluxA a r t) t + deriv (fun r => v.fluxR a r t) r =
      a ^ 3 * Real.sin t * Real.sinh r * (Real.sin t ^ 2 + Real.sinh r ^ 2) * v.div (axial a r t, radius a r t) := by
  have zA := Smooth.pull_deriv v.vZ v.zZ v.zY v.dZ (axial_t a r t) (radius_t a r t)
  have yA := Smooth.pull_deriv v.vY v.yZ v.yY v.dY (axial_t a r t) (radius_t a r t)
  have zR := Smooth.pull_deriv v.vZ v.zZ v.zY v.dZ (axial_r a r t) (radius_r a r t)
  have yR := Smooth.pull_deriv v.vY v.yZ v.yY v.dY (axial_r a r t) (radius_r a r t)
  have A := (radius_t a r t).mul ((zA.mul ((Real.hasDerivAt_sin t).neg.const_mul (a * Real.cosh r))).add
      (yA.mul ((Real.hasDerivAt_cos t).const_mul (a * Real.sinh r))))
  have B := (radius_r a r t).mul ((zR.mul (((Real.hasDerivAt_sinh r).const_mul a).mul_const (Real.cos t))).add
      (yR.mul (((Real.hasDerivAt_cosh r).const_mul a).mul_const (Real.sin t))))
  have eA : (fun t => v.fluxA a r t) = _ := funext fun t => by
    unfold fluxA inner2 Vec.at; rw [tangentA_eq]
  have eB : (fun r => v.fluxR a r t) = _ := funext fun r => by
    unfold fluxR inner2 Vec.at; rw [tangentR_eq]
  have A' := A.deriv
  have B' := B.deriv
  rw [eA, eB]
  refine (congrArg₂ (· + ·) A' B').trans ?_
  simp only [Vec.div, Pi.mul_apply, Pi.add_apply, Pi.neg_apply]
  have e1 : Real.cos t ^ 2 = 1 - Real.sin t ^ 2 := by rw [Real.cos_sq']
  have e2 : Real.cosh r ^ 2 = 1 + Real.sinh r ^ 2 := by rw [Real.cosh_sq]; ring
  generalize v.vZ _ = z
  generalize v.vY _ = y
  generalize v.zZ _ = zz
  generalize v.zY _ = zy
  generalize v.yZ _ = yz
  generalize v.yY _ = yy
  unfold radius
  generalize Real.sin t = st at *
  generalize Real.cos t = ct at *
  generalize Real.sinh r = sr at *
  generalize Real.cosh r = cr at *
  have := ht.ne'
  have := hr.ne'
  have hy : a ^ 3 * st * sr * (st ^ 2 + sr ^ 2) * (zz + yy + y / (a * sr * st)) =
      a ^ 3 * st * sr * (st ^ 2 + sr ^ 2) * (zz + yy) + a ^ 2 * (st ^ 2 + sr ^ 2) * y := by field_simp
  rw [hy]
  linear_combination (a ^ 3 * sr * st * sr ^ 2 * (zz + yy) + a ^ 2 * y * sr ^ 2) * e1 +
    (a ^ 3 * sr * st * st ^ 2 * (zz + yy) + a ^ 2 * y * st ^ 2) * e2

/-- C81, gradient: for a differentiable axially symmetric function sampled on the grid, `grada` and `gradr` return
the components of its gradient along the unit tangents, up to the errors of the two difference quotients over the
scale factor; the squares of the exact components add up to `|∇u|²`. -/
theorem C81_gradient (s : Smooth) {k Na Nr : ℕ} (hk : 0 < k) (hNa : k ≤ Na) (hNr : k ≤ Nr) {a L : ℝ}
    (ha0 : 0 < a) (hL : 0 < L) (ds1 ds2 : Fin (2 * k + 1) → ℝ)
    (hds1 : FDC.Returns (fun i => ((centred k i : ℤ) : ℝ)) 1 (.ok ds1))
    (hds2 : FDC.Returns (fun i => ((centred k i : ℤ) : ℝ)) 2 (.ok ds2)) :
    ∃ R, build Na Nr k a L (centred k) ds1 ds2 = .ok R ∧
      ∀ (f : Fin (Na * Nr) → ℝ), (∀ i j, f (at2 i j) = s.u (Z Na Nr a L (at2 i j), Y Na Nr a L (at2 i j))) →
      ∀ i j, ∃ eA eR gA gR : ℝ,
        eA = diffA ds1 (ha Na) 1 1 f i j - deriv (fun t => s.pull a (xr Nr L j) t) (xa Na i) ∧
        eR = diffR ds1 (hr Nr L) 1 1 (fun _ => 0) f i j - deriv (fun r => s.pull a r (xa Na i)) (xr Nr L j) ∧
        gA * Real.sqrt (normSq (tangentA a (xr Nr L j) (xa Na i))) =
          inner2 (s.uZ (Z Na Nr a L (at2 i j), Y Na Nr a L (at2 i j)), s.uY (Z Na Nr a L (at2 i j), Y Na Nr a L (at2 i j)))
            (tangentA a (xr Nr L j) (xa Na i)) ∧
        gR * Real.sqrt (normSq (tangentR a (xr Nr L j) (xa Na i))) =
          inner2 (s.uZ (Z Na Nr a L (at2 i j), Y Na Nr a L (at2 i j)), s.uY (Z Na Nr a L (at2 i j), Y Na Nr a L (at2 i j)))
            (tangentR a (xr Nr L j) (xa Na i)) ∧
        R.grada.mulVec f (at2 i j) = gA + eA / h1 Na Nr a L (at2 i j) ∧
        R.gradr.mulVec f (at2 i j) = gR + eR / h1 Na Nr a L (at2 i j) ∧
        gA ^ 2 + gR ^ 2 = normSq (s.uZ (Z Na Nr a L (at2 i j), Y Na Nr a L (at2 i j)),
          s.uY (Z Na Nr a L (at2 i j), Y Na Nr a L (at2 i j))) := by
  obtain ⟨R, hB, g1, g2, -, -⟩ := Ops.div_eq hk hNa hNr ha0 hL ds1 ds2 hds1 hds2
  refine ⟨R, hB, fun f hf i j => ?_⟩
  obtain ⟨d1, d2, -, -⟩ := s.pull_derivs a (xr Nr L j) (xa Na i)
  obtain ⟨eA, eR⟩ := C03_flat L i j (at2 i j) rfl
  obtain ⟨mZ, mY, hh, m1, m2, -⟩ := C72_metric (Na := Na) (Nr := Nr) ha0 hL (at2 i j)
  rw [eA, eR] at mZ mY m1 m2
  have s1 : Real.sqrt (normSq (tangentA a (xr Nr L j) (xa Na i))) = h1 Na Nr a L (at2 i j) := by
    rw [← m2, Real.sqrt_sq hh.le]
  have s2 : Real.sqrt (normSq (tangentR a (xr Nr L j) (xa Na i))) = h1 Na Nr a L (at2 i j) := by
    rw [← m1, Real.sqrt_sq hh.le]
  set p : ℝ × ℝ := (Z Na Nr a L (at2 i j), Y Na Nr a L (at2 i j)) with hp
  have hp' : (axial a (xr Nr L j) (xa Na i), radius a (xr Nr L j) (xa Na i)) = p := by rw [hp, mZ, mY]
  simp only [hp'] at d1 d2
  have hh' := hh.ne'
  refine ⟨_, _, inner2 (s.uZ p, s.uY p) (tangentA a (xr Nr L j) (xa Na i)) / h1 Na Nr a L (at2 i j),
    inner2 (s.uZ p, s.uY p) (tangentR a (xr Nr L j) (xa Na i)) / h1 Na Nr a L (at2 i j), rfl, rfl, ?_, ?_, ?_, ?_, ?_⟩
  · rw [s1]; field_simp
  · rw [s2]; field_simp
  · rw [g1, d2, tangentA_eq]; unfold inner2; ring
  · rw [g2, d1, tangentR_eq]; unfold inner2; ring
  · rw [div_pow, div_pow, ← add_div, div_eq_iff (by positivity), m1]
    rw [tangentA_eq, tangentR_eq] at *
    unfold inner2 normSq
    ring

/-- Away from the ends the stencil reads the samples. -/
theorem Spec.stencil_inside {k n : ℕ} (ds : Fin (2 * k + 1) → ℝ) (s : ℝ) (right : ℕ → ℝ) (u : Fin n → ℝ) (g : ℝ → ℝ)
    (x : Fin n → ℝ) (h : ℝ) (hx : ∀ i : Fin n, x i = ((i.1 : ℝ) + 1 / 2) * h) (hu : ∀ i, u i = g (x i)) (i : Fin n)
    (h1 : k ≤ i.1) (h2 : i.1 + k < n) :
    stencil ds (extend s right u) i.1 = ∑ q, ds q * g (x i + ((centred k q : ℤ) : ℝ) * h) := by
  unfold stencil
  refine Finset.sum_congr rfl fun q _ => ?_
  have hq := q.2
  unfold extend val
  rw [if_neg (by omega), if_pos (by omega), dif_pos (by omega), hu, hx, hx]
  congr 2
  have : ((((i.1 : ℤ) + ((q.1 : ℤ) - k)).toNat : ℕ) : ℝ) = (i.1 : ℝ) + ((centred k q : ℤ) : ℝ) := by
    have e : ((((i.1 : ℤ) + ((q.1 : ℤ) - k)).toNat : ℕ) : ℤ) = (i.1 : ℤ) + centred k q := by
      unfold centred; omega
    exact_mod_cast congrArg (Int.cast : ℤ → ℝ) e
  simp only [this]; ring

/-- C81, divergence at points at least the stencil's half-width away from the axis, from `r = 0` and from the outer
boundary: for a differentiable axially symmetric vector field given by its components along the unit tangents,
`diva @ ua + divr @ ur` is the divergence, up to the errors of the two difference quotients (which vanish with the
step, C74) over the volume element.  Missing for the full claim: the points closer to the axis, see `C81_refuted`. -/
theorem C81_divergence_partial (v : Vec) {k Na Nr : ℕ} (hk : 0 < k) (hNa : k ≤ Na) (hNr : k ≤ Nr) {a L : ℝ}
    (ha0 : 0 < a) (hL : 0 < L) (ds1 ds2 : Fin (2 * k + 1) → ℝ)
    (hds1 : FDC.Returns (fun i => ((centred k i : ℤ) : ℝ)) 1 (.ok ds1))
    (hds2 : FDC.Returns (fun i => ((centred k i : ℤ) : ℝ)) 2 (.ok ds2)) :
    ∃ R, build Na Nr k a L (centred k) ds1 ds2 = .ok R ∧
      ∀ ua ur : Fin (Na * Nr) → ℝ,
      (∀ i j, ua (at2 i j) * Real.sqrt (normSq (tangentA a (xr Nr L j) (xa Na i))) =
        inner2 (v.at a (xr Nr L j) (xa Na i)) (tangentA a (xr Nr L j) (xa Na i))) →
      (∀ i j, ur (at2 i j) * Real.sqrt (normSq (tangentR a (xr Nr L j) (xa Na i))) =
        inner2 (v.at a (xr Nr L j) (xa Na i)) (tangentR a (xr Nr L j) (xa Na i))) →
      ∀ (i : Fin Na) (j : Fin Nr), k ≤ i.1 → i.1 + k < Na → k ≤ j.1 → j.1 + k < Nr →
        ∃ eA eR : ℝ,
        eA = (∑ q, ds1 q * v.fluxA a (xr Nr L j) (xa Na i + ((centred k q : ℤ) : ℝ) * ha Na)) / ha Na -
          deriv (fun t => v.fluxA a (xr Nr L j) t) (xa Na i) ∧
        eR = (∑ q, ds1 q * v.fluxR a (xr Nr L j + ((centred k q : ℤ) : ℝ) * hr Nr L) (xa Na i)) / hr Nr L -
          deriv (fun r => v.fluxR a r (xa Na i)) (xr Nr L j) ∧
        R.diva.mulVec ua (at2 i j) + R.divr.mulVec ur (at2 i j) =
          v.div (Z Na Nr a L (at2 i j), Y Na Nr a L (at2 i j)) + (eA + eR) / w Na Nr a L (at2 i j) := by
  obtain ⟨R, hB, -, -, d1, d2⟩ := Ops.div_eq hk hNa hNr ha0 hL ds1 ds2 hds1 hds2
  refine ⟨R, hB, fun ua ur hua hur i j i1 i2 j1 j2 => ⟨_, _, rfl, rfl, ?_⟩⟩
  have met : ∀ i j, Real.sqrt (normSq (tangentA a (xr Nr L j) (xa Na i))) = h1 Na Nr a L (at2 i j) ∧
      Real.sqrt (normSq (tangentR a (xr Nr L j) (xa Na i))) = h1 Na Nr a L (at2 i j) ∧
      Z Na Nr a L (at2 i j) = axial a (xr Nr L j) (xa Na i) ∧
      Y Na Nr a L (at2 i j) = radius a (xr Nr L j) (xa Na i) := fun i j => by
    obtain ⟨eA, eR⟩ := C03_flat L i j (at2 i j) rfl
    obtain ⟨mZ, mY, hh, m1, m2, -⟩ := C72_metric (Na := Na) (Nr := Nr) ha0 hL (at2 i j)
    rw [eA, eR] at mZ mY m1 m2
    exact ⟨by rw [← m2, Real.sqrt_sq hh.le], by rw [← m1, Real.sqrt_sq hh.le], mZ, mY⟩
  obtain ⟨eA, eR⟩ := C03_flat L i j (at2 i j) rfl
  have hs := Init.sin_pos (at2 i j)
  have hsh := Init.sinh_pos hL (at2 i j)
  have hw := w_eq a L (at2 i j)
  rw [eA] at hs
  rw [eR] at hsh
  rw [eA, eR] at hw
  have hfl := v.div_flux ha0 hsh hs
  rw [← hw, ← (met i j).2.2.1, ← (met i j).2.2.2] at hfl
  have hw0 : w Na Nr a L (at2 i j) ≠ 0 := by rw [hw]; positivity
  have f1 := stencil_inside ds1 (-1) (reflect (-1) (lineA (fun q => h1 Na Nr a L q * Y Na Nr a L q * ua q) j))
    (lineA (fun q => h1 Na Nr a L q * Y Na Nr a L q * ua q) j) (fun t => v.fluxA a (xr Nr L j) t) (xa Na) (ha Na)
    (fun i => by rw [xa_eq, ha_eq]; ring)
    (fun i => by
      unfold lineA Vec.fluxA
      rw [← hua, (met i j).1, ← (met i j).2.2.2]; ring) i i1 i2
  have f2 := stencil_inside ds1 (-1) (fun _ => 0)
    (lineR (fun q => h1 Na Nr a L q * Y Na Nr a L q * ur q) i) (fun r => v.fluxR a r (xa Na i)) (xr Nr L) (hr Nr L)
    (fun i => by rw [xr_eq, hr_eq]; ring)
    (fun j => by
      unfold lineR Vec.fluxR
      rw [← hur, (met i j).2.1, ← (met i j).2.2.2]; ring) j j1 j2
  rw [d1, d2]
  unfold diffA diffR
  rw [f1, f2, pow_one, pow_one]
  have hD : v.div (Z Na Nr a L (at2 i j), Y Na Nr a L (at2 i j)) =
      (deriv (fun t => v.fluxA a (xr Nr L j) t) (xa Na i) + deriv (fun r => v.fluxR a r (xa Na i)) (xr Nr L j)) /
        w Na Nr a L (at2 i j) := by
    rw [eq_div_iff hw0, hfl, mul_comm]
  rw [hD]
  ring

/-- The field `(0, y)`: the distance vector from the axis.  Its divergence is 2 off the axis. -/
noncomputable def Spec.away : Vec where
  vZ := fun _ => 0
  vY := fun p => p.2
  zZ := fun _ => 0
  zY := fun _ => 0
  yZ := fun _ => 0
  yY := fun _ => 1
  dZ := fun p => by simpa using hasFDerivAt_const (0 : ℝ) p
  dY := fun p => by simpa using (ContinuousLinearMap.snd ℝ ℝ ℝ).hasFDerivAt (x := p)

theorem Spec.away_div (p : ℝ × ℝ) (hp : p.2 ≠ 0) : away.div p = 2 := by
  simp only [Vec.div, away]
  rw [div_self hp]; norm_num

/-- The computed divergence of `away` next to the axis, with angular coordinate `x` of the first point. -/
theorem away_limit (S C : ℝ) (hS : 0 < S) :
    Tendsto (fun x : ℝ => (S ^ 2 * (Real.sin x ^ 2 * Real.cos x + Real.sin (3 * x) ^ 2 * Real.cos (3 * x)) / (4 * x * Real.sin x) +
      Real.sin x ^ 2 * C) / (Real.sin x ^ 2 + S ^ 2)) (𝓝[>] 0) (𝓝 (5 / 2)) := by
  have hc : ContinuousAt (fun x : ℝ => (S ^ 2 * (Real.sinc x * Real.cos x + 9 * Real.sinc (3 * x) ^ 2 * Real.cos (3 * x) / Real.sinc x) / 4 +
      Real.sin x ^ 2 * C) / (Real.sin x ^ 2 + S ^ 2)) 0 := by
    have h3 : Continuous fun x : ℝ => Real.sinc (3 * x) := Real.continuous_sinc.comp (by fun_prop)
    have h1 := Real.continuous_sinc
    refine ContinuousAt.div ?_ (by fun_prop) (by simp; positivity)
    refine ContinuousAt.add (ContinuousAt.div_const (continuousAt_const.mul (ContinuousAt.add (by fun_prop)
      (ContinuousAt.div ?_ h1.continuousAt (by simp)))) _) (by fun_prop)
    fun_prop
  have h0 := hc.tendsto
  simp only [Real.sinc_zero, Real.cos_zero, Real.sin_zero, mul_zero] at h0
  have e : (S ^ 2 * (1 * 1 + 9 * 1 ^ 2 * 1 / 1) / 4 + 0 ^ 2 * C) / (0 ^ 2 + S ^ 2) = 5 / 2 := by
    field_simp; ring
  rw [e] at h0
  refine (h0.mono_left nhdsWithin_le_nhds).congr' ?_
  have hpi : Set.Ioo (0 : ℝ) Real.pi ∈ 𝓝[>] (0 : ℝ) := Ioo_mem_nhdsGT Real.pi_pos
  filter_upwards [hpi] with x hx
  have hx0 : x ≠ 0 := hx.1.ne'
  have hs : Real.sin x ≠ 0 := (Real.sin_pos_of_pos_of_lt_pi hx.1 hx.2).ne'
  rw [Real.sinc_of_ne_zero hx0, Real.sinc_of_ne_zero (by simpa using hx0)]
  congr 2
  field_simp
  ring

theorem stencil_first {n : ℕ} (right : ℕ → ℝ) (u : Fin (n + 2) → ℝ) :
    stencil (k := 1) ![-1/2, 0, 1/2] (extend (-1) right u) ((0 : Fin (n + 2)).1 : ℤ) = (u 0 + u 1) / 2 := by
  have e0 : extend (-1) right u (-1) = -u 0 := by
    unfold extend val
    rw [if_pos (by norm_num), dif_pos (by omega), neg_one_mul]; rfl
  have e1 : extend (-1) right u 1 = u 1 := by
    unfold extend val
    rw [if_neg (by norm_num), if_pos (by push_cast; omega), dif_pos ⟨by norm_num, by push_cast; omega⟩]
    refine congrArg u (Fin.ext ?_)
    simp
  unfold stencil
  rw [Fin.sum_univ_three]
  change (-1 / 2 : ℝ) * extend (-1) right u _ + 0 * extend (-1) right u _ + (1 / 2) * extend (-1) right u _ = _
  norm_num [e0, e1]
  ring

theorem stencil_mid (right : ℕ → ℝ) (u : Fin 3 → ℝ) :
    stencil (k := 1) ![-1/2, 0, 1/2] (extend (-1) right u) ((1 : Fin 3).1 : ℤ) = (u 2 - u 0) / 2 := by
  have e0 : extend (-1) right u 0 = u 0 := by
    unfold extend val
    rw [if_neg (by norm_num), if_pos (by norm_num), dif_pos (by norm_num)]; rfl
  have e1 : extend (-1) right u 2 = u 2 := by
    unfold extend val
    rw [if_neg (by norm_num), if_pos (by norm_num), dif_pos (by norm_num)]; rfl
  unfold stencil
  rw [Fin.sum_univ_three]
  change (-1 / 2 : ℝ) * extend (-1) right u _ + 0 * extend (-1) right u _ + (1 / 2) * extend (-1) right u _ = _
  norm_num [e0, e1]
  ring

/-- C81 is false next to the axis: `operators` uses the odd difference quotient for the fluxes `h2 h3 ua`, which are
even there.  For the field `(0, y)`, whose divergence is 2 everywhere, and the three-point stencil, the values computed
at the grid points next to the axis converge to 5/2 as the angular grid is refined. -/
theorem C81_refuted (a L : ℝ) (ha0 : 0 < a) (hL : 0 < L) :
    ∃ d : ℕ → ℝ, Tendsto d atTop (𝓝 (5 / 2)) ∧ ∀ m : ℕ, ∃ R ua ur,
      build (m + 2) 3 1 a L (centred 1) ![-1/2, 0, 1/2] ![1, -2, 1] = .ok R ∧
      (∀ i j, ua (at2 i j) * Real.sqrt (normSq (tangentA a (xr 3 L j) (xa (m + 2) i))) =
        inner2 (away.at a (xr 3 L j) (xa (m + 2) i)) (tangentA a (xr 3 L j) (xa (m + 2) i))) ∧
      (∀ i j, ur (at2 i j) * Real.sqrt (normSq (tangentR a (xr 3 L j) (xa (m + 2) i))) =
        inner2 (away.at a (xr 3 L j) (xa (m + 2) i)) (tangentR a (xr 3 L j) (xa (m + 2) i))) ∧
      d m = R.diva.mulVec ua (at2 0 1) + R.divr.mulVec ur (at2 0 1) ∧
      away.div (Z (m + 2) 3 a L (at2 0 1), Y (m + 2) 3 a L (at2 0 1)) = 2 := by
  have hS : 0 < Real.sinh (xr 3 L 1) := Real.sinh_pos_iff.mpr (xr_pos hL _)
  set S := Real.sinh (xr 3 L 1) with hSd
  set C := (Real.sinh (xr 3 L 2) ^ 2 * Real.cosh (xr 3 L 2) - Real.sinh (xr 3 L 0) ^ 2 * Real.cosh (xr 3 L 0)) /
    (2 * hr 3 L * S) with hC
  have hlim := away_limit S C hS
  refine ⟨fun m => (fun x : ℝ => (S ^ 2 * (Real.sin x ^ 2 * Real.cos x + Real.sin (3 * x) ^ 2 * Real.cos (3 * x)) / (4 * x * Real.sin x) +
      Real.sin x ^ 2 * C) / (Real.sin x ^ 2 + S ^ 2)) (Real.pi / 2 / ((m : ℝ) + 2)), hlim.comp ?_, fun m => ?_⟩
  · rw [tendsto_nhdsWithin_iff]
    refine ⟨?_, Eventually.of_forall fun m => ?_⟩
    · exact tendsto_const_nhds.div_atTop (tendsto_atTop_add_const_right _ _ tendsto_natCast_atTop_atTop)
    · have := Real.pi_pos
      change (0 : ℝ) < _
      positivity
  · obtain ⟨R, hB, -, -, d1, d2⟩ := Ops.div_eq (Na := m + 2) (Nr := 3) (k := 1) one_pos (by omega) (by norm_num) ha0 hL
      _ _ (three_point (K := ℝ)) (three_point2 (K := ℝ))
    have met : ∀ (i : Fin (m + 2)) (j : Fin 3), Real.sqrt (normSq (tangentA a (xr 3 L j) (xa (m + 2) i))) = h1 (m + 2) 3 a L (at2 i j) ∧
        Real.sqrt (normSq (tangentR a (xr 3 L j) (xa (m + 2) i))) = h1 (m + 2) 3 a L (at2 i j) ∧
        Y (m + 2) 3 a L (at2 i j) = radius a (xr 3 L j) (xa (m + 2) i) ∧ 0 < h1 (m + 2) 3 a L (at2 i j) := fun i j => by
      obtain ⟨eA, eR⟩ := C03_flat L i j (at2 i j) rfl
      obtain ⟨mZ, mY, hh, m1, m2, -⟩ := C72_metric (Na := m + 2) (Nr := 3) ha0 hL (at2 i j)
      rw [eA, eR] at mZ mY m1 m2
      exact ⟨by rw [← m2, Real.sqrt_sq hh.le], by rw [← m1, Real.sqrt_sq hh.le], mY, hh⟩
    refine ⟨R, fun q => inner2 (away.at a (xr 3 L (ir q)) (xa (m + 2) (ia q))) (tangentA a (xr 3 L (ir q)) (xa (m + 2) (ia q))) /
        h1 (m + 2) 3 a L q,
      fun q => inner2 (away.at a (xr 3 L (ir q)) (xa (m + 2) (ia q))) (tangentR a (xr 3 L (ir q)) (xa (m + 2) (ia q))) /
        h1 (m + 2) 3 a L q, hB, fun i j => ?_, fun i j => ?_, ?_, ?_⟩
    · have := (met i j).2.2.2.ne'
      simp only [(met i j).1, ia_at2, ir_at2]; field_simp
    · have := (met i j).2.2.2.ne'
      simp only [(met i j).2.1, ia_at2, ir_at2]; field_simp
    · have f1 : ∀ (i : Fin (m + 2)) (j : Fin 3), h1 (m + 2) 3 a L (at2 i j) * Y (m + 2) 3 a L (at2 i j) *
          (inner2 (away.at a (xr 3 L (ir (at2 i j))) (xa (m + 2) (ia (at2 i j))))
            (tangentA a (xr 3 L (ir (at2 i j))) (xa (m + 2) (ia (at2 i j)))) / h1 (m + 2) 3 a L (at2 i j)) =
          a ^ 3 * Real.sinh (xr 3 L j) ^ 3 * (Real.sin (xa (m + 2) i) ^ 2 * Real.cos (xa (m + 2) i)) := fun i j => by
        have := (met i j).2.2.2.ne'
        rw [ia_at2, ir_at2, (met i j).2.2.1, tangentA_eq]
        simp only [inner2, Vec.at, away, radius]
        field_simp
        ring
      have f2 : ∀ (i : Fin (m + 2)) (j : Fin 3), h1 (m + 2) 3 a L (at2 i j) * Y (m + 2) 3 a L (at2 i j) *
          (inner2 (away.at a (xr 3 L (ir (at2 i j))) (xa (m + 2) (ia (at2 i j))))
            (tangentR a (xr 3 L (ir (at2 i j))) (xa (m + 2) (ia (at2 i j)))) / h1 (m + 2) 3 a L (at2 i j)) =
          a ^ 3 * (Real.sinh (xr 3 L j) ^ 2 * Real.cosh (xr 3 L j)) * Real.sin (xa (m + 2) i) ^ 3 := fun i j => by
        have := (met i j).2.2.2.ne'
        rw [ia_at2, ir_at2, (met i j).2.2.1, tangentR_eq]
        simp only [inner2, Vec.at, away, radius]
        field_simp
        ring
      rw [d1, d2]
      unfold diffA diffR
      rw [stencil_first, stencil_mid]
      unfold lineA lineR
      simp only [f1, f2]
      have hx0 : xa (m + 2) (0 : Fin (m + 2)) = Real.pi / 2 / ((m : ℝ) + 2) := by
        rw [xa_eq]; push_cast; simp; ring
      have hx1 : xa (m + 2) (1 : Fin (m + 2)) = 3 * (Real.pi / 2 / ((m : ℝ) + 2)) := by
        rw [xa_eq]; push_cast; simp; ring
      have hha : ha (m + 2) = 2 * (Real.pi / 2 / ((m : ℝ) + 2)) := by
        rw [ha_eq]; push_cast; ring
      have hw := w_eq a L (at2 (0 : Fin (m + 2)) (1 : Fin 3))
      obtain ⟨eA, eR⟩ := C03_flat L (0 : Fin (m + 2)) (1 : Fin 3) (at2 0 1) rfl
      have hs := Init.sin_pos (at2 (0 : Fin (m + 2)) (1 : Fin 3))
      rw [eA] at hs
      rw [eA, eR] at hw
      rw [hw]
      rw [hx1]
      rw [hx0] at hs ⊢
      rw [hha]
      have hxp : 0 < Real.pi / 2 / ((m : ℝ) + 2) := by have := Real.pi_pos; positivity
      set x := Real.pi / 2 / ((m : ℝ) + 2)
      have hhr : hr 3 L ≠ 0 := by rw [hr_eq]; positivity
      rw [← hSd]
      have hSn := hS.ne'
      have hsn := hs.ne'
      have hxn := hxp.ne'
      have hq : Real.sin x ^ 2 + S ^ 2 ≠ 0 := by positivity
      rw [hC]
      field_simp
      ring
    · refine away_div _ ?_
      simp only
      rw [Y_eq]
      have := Init.sin_pos (at2 (0 : Fin (m + 2)) (1 : Fin 3))
      have := Init.sinh_pos hL (at2 (0 : Fin (m + 2)) (1 : Fin 3))
      positivity

end Verif
