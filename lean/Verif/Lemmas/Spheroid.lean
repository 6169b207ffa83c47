import Mathlib.Analysis.SpecialFunctions.PolarCoord
import Mathlib.Analysis.SpecialFunctions.Trigonometric.DerivHyp
import Mathlib.Analysis.SpecialFunctions.Arcosh
import Mathlib.MeasureTheory.Integral.IntervalIntegral.Basic
import Mathlib.MeasureTheory.Integral.Prod

/-! # Integration in prolate spheroidal coordinates -/

namespace Verif.Spheroid
open Real MeasureTheory Set

/-- Distance from the axis and position along it. -/
noncomputable def map (a : ℝ) (p : ℝ × ℝ) : ℝ × ℝ := (a * sinh p.1 * sin p.2, a * cosh p.1 * cos p.2)

/-- Distance of a point to the focus at `c` on the axis. -/
noncomputable def focal (c : ℝ) (q : ℝ × ℝ) : ℝ := √(q.1 ^ 2 + (q.2 - c) ^ 2)

noncomputable def deriv (a : ℝ) (p : ℝ × ℝ) : ℝ × ℝ →L[ℝ] ℝ × ℝ :=
  (Matrix.toLin (.finTwoProd ℝ) (.finTwoProd ℝ)
    !![a * cosh p.1 * sin p.2, a * sinh p.1 * cos p.2; a * sinh p.1 * cos p.2, -(a * cosh p.1 * sin p.2)]).toContinuousLinearMap

theorem hasFDerivAt_map (a : ℝ) (p : ℝ × ℝ) : HasFDerivAt (map a) (deriv a p) p := by
  unfold deriv
  rw [Matrix.toLin_finTwoProd_toContinuousLinearMap]
  have h1 := ((hasDerivAt_sinh p.1).comp_hasFDerivAt p (hasFDerivAt_fst (𝕜 := ℝ))).const_mul a
  have h2 := ((hasDerivAt_cosh p.1).comp_hasFDerivAt p (hasFDerivAt_fst (𝕜 := ℝ))).const_mul a
  have h3 := (hasDerivAt_sin p.2).comp_hasFDerivAt p (hasFDerivAt_snd (𝕜 := ℝ))
  have h4 := (hasDerivAt_cos p.2).comp_hasFDerivAt p (hasFDerivAt_snd (𝕜 := ℝ))
  refine ((h1.mul h3).prodMk (h2.mul h4)).congr_fderiv ?_
  ext x <;> simp <;> ring

theorem det_deriv (a : ℝ) (p : ℝ × ℝ) : (deriv a p).det = -(a ^ 2 * (sinh p.1 ^ 2 + sin p.2 ^ 2)) := by
  unfold deriv
  simp only [LinearMap.det_toContinuousLinearMap, LinearMap.det_toLin, Matrix.det_fin_two_of]
  have h1 := cosh_sq p.1
  have h2 := cos_sq' p.2
  linear_combination -a ^ 2 * sin p.2 ^ 2 * h1 - a ^ 2 * sinh p.1 ^ 2 * h2

theorem focal_neg {a : ℝ} (ha : 0 < a) (p : ℝ × ℝ) : focal (-a) (map a p) = a * (cosh p.1 + cos p.2) := by
  have : (map a p).1 ^ 2 + ((map a p).2 - -a) ^ 2 = (a * (cosh p.1 + cos p.2)) ^ 2 := by
    have h1 := cosh_sq p.1
    have h2 := sin_sq p.2
    simp only [map]
    linear_combination a ^ 2 * sinh p.1 ^ 2 * h2 + a ^ 2 * (cos p.2 ^ 2 - 1) * h1
  rw [focal, this, sqrt_sq]
  have := one_le_cosh p.1
  have := neg_one_le_cos p.2
  nlinarith

theorem focal_pos {a : ℝ} (ha : 0 < a) (p : ℝ × ℝ) : focal a (map a p) = a * (cosh p.1 - cos p.2) := by
  have : (map a p).1 ^ 2 + ((map a p).2 - a) ^ 2 = (a * (cosh p.1 - cos p.2)) ^ 2 := by
    have h1 := cosh_sq p.1
    have h2 := sin_sq p.2
    simp only [map]
    linear_combination a ^ 2 * sinh p.1 ^ 2 * h2 + a ^ 2 * (cos p.2 ^ 2 - 1) * h1
  rw [focal, this, sqrt_sq]
  have := one_le_cosh p.1
  have := cos_le_one p.2
  nlinarith

theorem injOn {a : ℝ} (ha : 0 < a) (L : ℝ) : InjOn (map a) (Ioo 0 L ×ˢ Ioo 0 π) := by
  rintro p ⟨hp1, hp2⟩ q ⟨hq1, hq2⟩ h
  have h1 := focal_neg ha p
  have h2 := focal_pos ha p
  rw [h, focal_neg ha q] at h1
  rw [h, focal_pos ha q] at h2
  have h1 := mul_left_cancel₀ ha.ne' h1
  have h2 := mul_left_cancel₀ ha.ne' h2
  refine Prod.ext ?_ ?_
  · have : cosh p.1 = cosh q.1 := by linarith
    rcases lt_trichotomy p.1 q.1 with h | h | h
    · exact absurd this (ne_of_lt (cosh_lt_cosh.mpr (by rwa [abs_of_pos hp1.1, abs_of_pos hq1.1])))
    · exact h
    · exact absurd this (ne_of_gt (cosh_lt_cosh.mpr (by rwa [abs_of_pos hp1.1, abs_of_pos hq1.1])))
  · exact injOn_cos ⟨hp2.1.le, hp2.2.le⟩ ⟨hq2.1.le, hq2.2.le⟩ (by linarith)

theorem image_eq {a L : ℝ} (ha : 0 < a) (hL : 0 < L) : map a '' (Ioo 0 L ×ˢ Ioo 0 π) =
    {q | 0 < q.1 ∧ focal (-a) q + focal a q < 2 * a * cosh L} := by
  ext q
  constructor
  · rintro ⟨p, ⟨h1, h2⟩, rfl⟩
    refine ⟨mul_pos (mul_pos ha (sinh_pos_iff.mpr h1.1)) (sin_pos_of_pos_of_lt_pi h2.1 h2.2), ?_⟩
    rw [focal_neg ha, focal_pos ha]
    have : cosh p.1 < cosh L := cosh_lt_cosh.mpr (by rw [abs_of_pos h1.1, abs_of_pos hL]; exact h1.2)
    nlinarith
  · rintro ⟨h1, h2⟩
    set u := focal (-a) q with hu
    set v := focal a q with hv
    have hu2 : u ^ 2 = q.1 ^ 2 + (q.2 + a) ^ 2 := by rw [hu, focal, sq_sqrt (by positivity)]; ring
    have hv2 : v ^ 2 = q.1 ^ 2 + (q.2 - a) ^ 2 := by rw [hv, focal, sq_sqrt (by positivity)]
    have hu0 : 0 < u := sqrt_pos.mpr (by positivity)
    have hv0 : 0 < v := sqrt_pos.mpr (by positivity)
    have huv : u ^ 2 - v ^ 2 = 4 * a * q.2 := by rw [hu2, hv2]; ring
    -- the triangle inequalities are strict off the axis
    have t1 : 2 * a < u + v := by
      have a1 : |q.2 + a| < u := by rw [← sqrt_sq_eq_abs]; exact sqrt_lt_sqrt (by positivity) (by nlinarith)
      have a2 : |q.2 - a| < v := by rw [← sqrt_sq_eq_abs]; exact sqrt_lt_sqrt (by positivity) (by nlinarith)
      linarith [le_abs_self (q.2 + a), neg_abs_le (q.2 - a)]
    have t2 : |u - v| < 2 * a := by
      rw [abs_lt]
      have b1 : |q.2 + a| < u := by rw [← sqrt_sq_eq_abs]; exact sqrt_lt_sqrt (by positivity) (by nlinarith)
      have b2 : |q.2 - a| < v := by rw [← sqrt_sq_eq_abs]; exact sqrt_lt_sqrt (by positivity) (by nlinarith)
      have key : (u - v) * (u + v) = 4 * a * q.2 := by linear_combination huv
      have c1 := abs_lt.mp b1
      have c2 := abs_lt.mp b2
      have : 2 * |q.2| < u + v := by
        rcases abs_cases q.2 with ⟨e, _⟩ | ⟨e, _⟩ <;> rw [e] <;> linarith
      have d1 := abs_lt.mp (show |q.2| < (u + v) / 2 by linarith)
      constructor <;> nlinarith
    have hC : 1 < (u + v) / (2 * a) := by rw [lt_div_iff₀ (by positivity)]; linarith
    have hc := abs_lt.mp t2
    have hc1 : -1 < (u - v) / (2 * a) := by rw [lt_div_iff₀ (by positivity)]; linarith
    have hc2 : (u - v) / (2 * a) < 1 := by rw [div_lt_iff₀ (by positivity)]; linarith
    obtain ⟨r, hr0, hr⟩ : ∃ r, 0 < r ∧ cosh r = (u + v) / (2 * a) :=
      ⟨arcosh ((u + v) / (2 * a)), arcosh_pos hC, cosh_arcosh hC.le⟩
    set θ := arccos ((u - v) / (2 * a)) with hθ
    have hcos : cos θ = (u - v) / (2 * a) := cos_arccos hc1.le hc2.le
    have hrL : r < L := by
      have : cosh r < cosh L := by rw [hr, div_lt_iff₀ (by positivity)]; linarith
      have := cosh_lt_cosh.mp this
      rwa [abs_of_pos hr0, abs_of_pos hL] at this
    refine ⟨(r, θ), ⟨⟨hr0, hrL⟩, ⟨arccos_pos.mpr hc2, ?_⟩⟩, ?_⟩
    · refine lt_of_le_of_ne (arccos_le_pi _) fun h => ?_
      rw [arccos_eq_pi] at h
      linarith
    · have hθ1 : 0 ≤ sin θ := sin_nonneg_of_nonneg_of_le_pi (arccos_nonneg _) (arccos_le_pi _)
      have hs : 0 < sinh r := sinh_pos_iff.mpr hr0
      refine Prod.ext ?_ ?_
      · have : (a * sinh r * sin θ) ^ 2 = q.1 ^ 2 := by
          have e1 := sinh_sq r
          have e2 := sin_sq θ
          rw [mul_pow, mul_pow, e1, e2, hr, hcos]
          have hq : q.2 = (u ^ 2 - v ^ 2) / (4 * a) := by rw [huv]; field_simp
          have : q.1 ^ 2 = u ^ 2 - (q.2 + a) ^ 2 := by rw [hu2]; ring
          rw [this, hq]
          field_simp
          ring
        exact (pow_left_inj₀ (mul_nonneg (mul_nonneg ha.le hs.le) hθ1) h1.le two_ne_zero).mp this
      · show a * cosh r * cos θ = q.2
        rw [hr, hcos]
        have hq : q.2 = (u ^ 2 - v ^ 2) / (4 * a) := by rw [huv]; field_simp
        rw [hq]
        field_simp
        ring

theorem continuous_map (a : ℝ) : Continuous (map a) := by unfold map; fun_prop

theorem continuous_focal (c : ℝ) : Continuous (focal c) := by unfold focal; fun_prop

/-- The half plane, in spheroidal coordinates. -/
theorem integral_half {a L : ℝ} (ha : 0 < a) (hL : 0 < L) {g : ℝ × ℝ → ℝ} (hg : Continuous g) :
    ∫ q in {q : ℝ × ℝ | 0 < q.1 ∧ focal (-a) q + focal a q < 2 * a * cosh L}, q.1 * g q =
      ∫ r in (0 : ℝ)..L, ∫ θ in (0 : ℝ)..π, g (map a (r, θ)) *
        (a ^ 3 * sinh r * sin θ * (sinh r ^ 2 + sin θ ^ 2)) := by
  have hm : MeasurableSet (Ioo 0 L ×ˢ Ioo 0 π) := measurableSet_Ioo.prod measurableSet_Ioo
  rw [← image_eq ha hL, integral_image_eq_integral_abs_det_fderiv_smul volume hm
    (fun p _ => (hasFDerivAt_map a p).hasFDerivWithinAt) (injOn ha L)]
  have e : ∀ p : ℝ × ℝ, |(deriv a p).det| • ((map a p).1 * g (map a p)) =
      g (map a (p.1, p.2)) * (a ^ 3 * sinh p.1 * sin p.2 * (sinh p.1 ^ 2 + sin p.2 ^ 2)) := by
    intro p
    rw [det_deriv, abs_neg, abs_of_nonneg (by positivity), smul_eq_mul]
    simp only [map]
    ring
  simp_rw [e]
  have hc : Continuous fun p : ℝ × ℝ => g (map a (p.1, p.2)) * (a ^ 3 * sinh p.1 * sin p.2 * (sinh p.1 ^ 2 + sin p.2 ^ 2)) := by
    have := continuous_map a
    refine (hg.comp (this.comp (continuous_fst.prodMk continuous_snd))).mul ?_
    fun_prop
  have hi : IntegrableOn (fun p : ℝ × ℝ => g (map a (p.1, p.2)) * (a ^ 3 * sinh p.1 * sin p.2 * (sinh p.1 ^ 2 + sin p.2 ^ 2)))
      (Ioo 0 L ×ˢ Ioo 0 π) (volume.prod volume) :=
    (hc.continuousOn.integrableOn_compact (μ := (volume.prod volume : Measure (ℝ × ℝ))) (isCompact_Icc.prod isCompact_Icc)).mono_set
      (prod_mono Ioo_subset_Icc_self Ioo_subset_Icc_self)
  rw [Measure.volume_eq_prod, setIntegral_prod _ hi, intervalIntegral.integral_of_le hL.le, integral_Ioc_eq_integral_Ioo]
  refine setIntegral_congr_fun measurableSet_Ioo fun r _ => ?_
  simp only
  rw [intervalIntegral.integral_of_le pi_pos.le, integral_Ioc_eq_integral_Ioo]

/-- The plane, in polar coordinates, for a function of the distance from the origin. -/
theorem integral_axial (f : ℝ → ℝ) : ∫ p : ℝ × ℝ, f (√(p.1 ^ 2 + p.2 ^ 2)) = 2 * π * ∫ ρ in Ioi (0 : ℝ), ρ * f ρ := by
  rw [← integral_comp_polarCoord_symm]
  have : ∀ p ∈ polarCoord.target, p.1 • f (√((polarCoord.symm p).1 ^ 2 + (polarCoord.symm p).2 ^ 2)) =
      (p.1 * f p.1) * 1 := by
    rintro p ⟨hp, -⟩
    have : (polarCoord.symm p).1 ^ 2 + (polarCoord.symm p).2 ^ 2 = p.1 ^ 2 := by
      simp only [polarCoord_symm_apply]
      have := sin_sq_add_cos_sq p.2
      linear_combination p.1 ^ 2 * this
    rw [this, sqrt_sq (le_of_lt hp), smul_eq_mul, mul_one]
  rw [setIntegral_congr_fun polarCoord.open_target.measurableSet this, polarCoord_target, Measure.volume_eq_prod,
    setIntegral_prod_mul (fun ρ : ℝ => ρ * f ρ) (fun _ : ℝ => (1 : ℝ))]
  simp only [integral_const, MeasurableSet.univ, measureReal_restrict_apply, univ_inter, smul_eq_mul, mul_one, volume_real_Ioo]
  rw [max_eq_left (by linarith [pi_pos])]
  ring

/-- The points whose distances to the two foci sum up to less than `2 a cosh L`. -/
def body (a L : ℝ) : Set ((ℝ × ℝ) × ℝ) :=
  {x | √(x.1.1 ^ 2 + x.1.2 ^ 2 + (x.2 + a) ^ 2) + √(x.1.1 ^ 2 + x.1.2 ^ 2 + (x.2 - a) ^ 2) < 2 * a * cosh L}

theorem body_bounded {a L : ℝ} : ∃ R, body a L ⊆ (Icc (-R) R ×ˢ Icc (-R) R) ×ˢ Icc (-R) R := by
  refine ⟨2 * a * cosh L + |a|, fun x hx => ?_⟩
  have n1 : 0 ≤ √(x.1.1 ^ 2 + x.1.2 ^ 2 + (x.2 - a) ^ 2) := sqrt_nonneg _
  have hlt : √(x.1.1 ^ 2 + x.1.2 ^ 2 + (x.2 + a) ^ 2) < 2 * a * cosh L := by
    have : _ < 2 * a * cosh L := hx
    linarith
  have h1 : |x.1.1| ≤ √(x.1.1 ^ 2 + x.1.2 ^ 2 + (x.2 + a) ^ 2) := abs_le_sqrt (by nlinarith)
  have h2 : |x.1.2| ≤ √(x.1.1 ^ 2 + x.1.2 ^ 2 + (x.2 + a) ^ 2) := abs_le_sqrt (by nlinarith)
  have h3 : |x.2 + a| ≤ √(x.1.1 ^ 2 + x.1.2 ^ 2 + (x.2 + a) ^ 2) := abs_le_sqrt (by nlinarith)
  have ha := abs_nonneg a
  have h3' : |x.2| ≤ |x.2 + a| + |a| := by
    have := abs_sub (x.2 + a) a
    simpa using this
  refine ⟨⟨abs_le.mp (by linarith), abs_le.mp (by linarith)⟩, abs_le.mp (by linarith)⟩

theorem body_measurable (a L : ℝ) : MeasurableSet (body a L) :=
  (isOpen_lt (by fun_prop) (by fun_prop)).measurableSet

/-- The integral of a continuous axially symmetric function over the body, in spheroidal coordinates. -/
theorem integral_body {a L : ℝ} (ha : 0 < a) (hL : 0 < L) {g : ℝ × ℝ → ℝ} (hg : Continuous g) :
    ∫ x in body a L, g (√(x.1.1 ^ 2 + x.1.2 ^ 2), x.2) =
      2 * π * ∫ r in (0 : ℝ)..L, ∫ θ in (0 : ℝ)..π, g (map a (r, θ)) *
        (a ^ 3 * sinh r * sin θ * (sinh r ^ 2 + sin θ ^ 2)) := by
  rw [← integral_half ha hL hg]
  set H : Set (ℝ × ℝ) := {q : ℝ × ℝ | focal (-a) q + focal a q < 2 * a * cosh L} with hH
  have hHm : MeasurableSet H :=
    (isOpen_lt ((continuous_focal _).add (continuous_focal _)) continuous_const).measurableSet
  obtain ⟨R, hR⟩ := body_bounded (a := a) (L := L)
  -- over the body
  have hc : Continuous fun x : (ℝ × ℝ) × ℝ => g (√(x.1.1 ^ 2 + x.1.2 ^ 2), x.2) := hg.comp (by fun_prop)
  have hi : IntegrableOn (fun x : (ℝ × ℝ) × ℝ => g (√(x.1.1 ^ 2 + x.1.2 ^ 2), x.2)) (body a L) :=
    (hc.continuousOn.integrableOn_compact ((isCompact_Icc.prod isCompact_Icc).prod isCompact_Icc)).mono_set hR
  have hind : ∀ x : (ℝ × ℝ) × ℝ, (body a L).indicator (fun x : (ℝ × ℝ) × ℝ => g (√(x.1.1 ^ 2 + x.1.2 ^ 2), x.2)) x =
      H.indicator g (√(x.1.1 ^ 2 + x.1.2 ^ 2), x.2) := by
    intro x
    have : x ∈ body a L ↔ (√(x.1.1 ^ 2 + x.1.2 ^ 2), x.2) ∈ H := by
      simp only [body, hH, mem_ofPred_eq, focal]
      rw [sq_sqrt (by positivity), sub_neg_eq_add]
    by_cases h : x ∈ body a L
    · rw [indicator_of_mem h, indicator_of_mem (this.mp h)]
    · rw [indicator_of_notMem h, indicator_of_notMem (this.not.mp h)]
  have hi' := hi.integrable_indicator (body_measurable a L)
  rw [← integral_indicator (body_measurable a L), Measure.volume_eq_prod, integral_prod_symm _ hi']
  simp_rw [hind]
  have h1 : ∀ z : ℝ, ∫ p : ℝ × ℝ, H.indicator g (√(p.1 ^ 2 + p.2 ^ 2), z) = 2 * π * ∫ ρ in Ioi (0 : ℝ), ρ * H.indicator g (ρ, z) :=
    fun z => integral_axial fun ρ => H.indicator g (ρ, z)
  simp_rw [h1]
  rw [integral_const_mul]
  congr 1
  -- over the half plane
  have hsub : Ioi (0 : ℝ) ×ˢ (univ : Set ℝ) ∩ H = {q : ℝ × ℝ | 0 < q.1 ∧ focal (-a) q + focal a q < 2 * a * cosh L} := by
    ext q; simp [hH]
  have hbd : H ⊆ Icc (-R) R ×ˢ Icc (-R) R := by
    intro q hq
    have : (((q.1, 0) : ℝ × ℝ), q.2) ∈ body a L := by
      simpa [body, hH, focal] using hq
    have := hR this
    exact ⟨this.1.1, this.2⟩
  have hj : Integrable (fun q : ℝ × ℝ => q.1 * H.indicator g q) := by
    have : (fun q : ℝ × ℝ => q.1 * H.indicator g q) = H.indicator fun q => q.1 * g q := by
      funext q
      by_cases h : q ∈ H
      · rw [indicator_of_mem h, indicator_of_mem h]
      · rw [indicator_of_notMem h, indicator_of_notMem h, mul_zero]
    rw [this]
    refine IntegrableOn.integrable_indicator ?_ hHm
    exact ((continuous_fst.mul hg).continuousOn.integrableOn_compact (isCompact_Icc.prod isCompact_Icc)).mono_set hbd
  rw [← hsub, inter_comm, ← Measure.restrict_restrict hHm, ← integral_indicator hHm]
  have e : ∀ q : ℝ × ℝ, H.indicator (fun q => q.1 * g q) q = q.1 * H.indicator g q := by
    intro q
    by_cases h : q ∈ H
    · rw [indicator_of_mem h, indicator_of_mem h]
    · rw [indicator_of_notMem h, indicator_of_notMem h, mul_zero]
  simp_rw [e]
  rw [Measure.volume_eq_prod, ← Measure.prod_restrict, Measure.restrict_univ, integral_prod_symm]
  have := hj.integrableOn (s := Ioi (0 : ℝ) ×ˢ (univ : Set ℝ))
  rw [IntegrableOn, Measure.volume_eq_prod, ← Measure.prod_restrict, Measure.restrict_univ] at this
  exact this

end Verif.Spheroid
