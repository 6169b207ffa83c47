import Mathlib.Analysis.Complex.Basic
import Mathlib.Analysis.Real.Sqrt
import Mathlib.Algebra.QuadraticDiscriminant
import Mathlib.Tactic.FieldSimp
import Mathlib.Tactic.LinearCombination

/-!
# Three coupled levels whose two cycle products differ have a non-real energy for some diagonal
-/

namespace Verif.Three

/-- The vector, once the real equations for the diagonal are solved. -/
theorem cycle_vector {m12 m13 m21 m23 m31 m32 r r' q1 q2 x y' z y θ s t c η : ℝ} (hr : r = m13 * m32) (hr' : r' = m23 * m31)
    (hq1 : q1 = m13 * m31) (hq2 : q2 = m23 * m32) (hs : s = 1 + q1 * y) (ht : t = 1 + q2 * y) (hc : c = z / y)
    (hy : y = z ^ 2 + η) (hypos : 0 < y) (hθpos : 0 < θ) (hr0 : r ≠ 0) (hθ2 : θ ^ 2 * y ^ 2 = η)
    (hy1 : s * y' + t * x = y * (r * (m21 - r' * z) + r' * (m12 - r * z)))
    (hy2 : x * y' = (m12 - r * z) * (m21 - r' * z) - r * r' * η + θ ^ 2 * (s * t)) :
    ∃ u₁ u₂ u₃ : ℂ, u₁ ≠ 0 ∧ ((x + q1 * z : ℝ) : ℂ) * u₁ + m12 * u₂ + m13 * u₃ = θ * Complex.I * u₁ ∧
      m21 * u₁ + ((y' + q2 * z : ℝ) : ℂ) * u₂ + m23 * u₃ = θ * Complex.I * u₂ ∧
      m31 * u₁ + m32 * u₂ + c * u₃ = θ * Complex.I * u₃ := by
  set ζ : ℂ := (z : ℂ) + (θ * y : ℝ) * Complex.I with hζ
  have hcζ : ((c : ℂ) - θ * Complex.I) * ζ = 1 := by
    apply Complex.ext
    · simp [hζ]
      rw [hc]
      have : θ * (θ * y) = η / y := by rw [eq_div_iff hypos.ne', ← hθ2]; ring
      rw [this]; field_simp; exact hy.symm
    · simp [hζ]
      rw [hc]; field_simp; ring
  set X : ℂ := (x + q1 * z : ℝ) - θ * Complex.I - q1 * ζ with hX
  set Y : ℂ := (y' + q2 * z : ℝ) - θ * Complex.I - q2 * ζ with hY
  set K₁ : ℂ := m12 - r * ζ with hK₁
  set K₂ : ℂ := m21 - r' * ζ with hK₂
  have hXY : X * Y = K₁ * K₂ := by
    have eX : X = (x : ℂ) - (θ * s : ℝ) * Complex.I := by rw [hX, hζ, hs]; push_cast; ring
    have eY : Y = (y' : ℂ) - (θ * t : ℝ) * Complex.I := by rw [hY, hζ, ht]; push_cast; ring
    have e1 : K₁ = ((m12 - r * z : ℝ) : ℂ) - (r * (θ * y) : ℝ) * Complex.I := by rw [hK₁, hζ]; push_cast; ring
    have e2 : K₂ = ((m21 - r' * z : ℝ) : ℂ) - (r' * (θ * y) : ℝ) * Complex.I := by rw [hK₂, hζ]; push_cast; ring
    rw [eX, eY, e1, e2]
    generalize m12 - r * z = k1 at *
    generalize m21 - r' * z = k2 at *
    apply Complex.ext
    · simp
      have : r * (θ * y) * (r' * (θ * y)) = r * r' * η := by rw [← hθ2]; ring
      rw [this]
      linarith
    · simp
      linear_combination -θ * hy1
  refine ⟨K₁, -X, -ζ * (m31 * K₁ + m32 * -X), ?_, ?_, ?_, ?_⟩
  · intro h
    have := congrArg Complex.im h
    simp [hK₁, hζ] at this
    rcases this with h | h | h
    · exact hr0 h
    · exact hθpos.ne' h
    · exact hypos.ne' h
  · have : (r : ℂ) = m13 * m32 := by rw [hr]; push_cast; ring
    have h1 : (q1 : ℂ) = m13 * m31 := by rw [hq1]; push_cast; ring
    have e : ((x + q1 * z : ℝ) : ℂ) = X + θ * Complex.I + q1 * ζ := by rw [hX]; ring
    rw [e, h1]
    have e1 : (m12 : ℂ) = K₁ + m13 * m32 * ζ := by rw [hK₁, this]; ring
    rw [e1]; ring
  · have : (r' : ℂ) = m23 * m31 := by rw [hr']; push_cast; ring
    have h1 : (q2 : ℂ) = m23 * m32 := by rw [hq2]; push_cast; ring
    have e : ((y' + q2 * z : ℝ) : ℂ) = Y + θ * Complex.I + q2 * ζ := by rw [hY]; ring
    rw [e, h1]
    have e1 : (m21 : ℂ) = K₂ + m23 * m31 * ζ := by rw [hK₂, this]; ring
    rw [e1]
    linear_combination -hXY
  · linear_combination (-(m31 * K₁ + m32 * -X)) * hcζ

theorem complex_of_cycle (m12 m13 m21 m23 m31 m32 : ℝ) (h12 : 0 < m12 * m21) (h13 : 0 < m13 * m31)
    (h23 : 0 < m23 * m32) (hne : m12 * m23 * m31 ≠ m13 * m32 * m21) :
    ∃ (a b c θ : ℝ) (u₁ u₂ u₃ : ℂ), 0 < θ ∧ u₁ ≠ 0 ∧ a * u₁ + m12 * u₂ + m13 * u₃ = θ * Complex.I * u₁ ∧
      m21 * u₁ + b * u₂ + m23 * u₃ = θ * Complex.I * u₂ ∧ m31 * u₁ + m32 * u₂ + c * u₃ = θ * Complex.I * u₃ := by
  set r := m13 * m32 with hr
  set r' := m23 * m31 with hr'
  have hrr : 0 < r * r' := by
    have := mul_pos h13 h23
    rw [hr, hr']; nlinarith
  have hr0 : r ≠ 0 := left_ne_zero_of_mul hrr.ne'
  have hr0' : r' ≠ 0 := right_ne_zero_of_mul hrr.ne'
  set z := (m12 / r + m21 / r') / 2 with hz
  set δ := (m12 / r - m21 / r') / 2 with hδ
  have hδ0 : δ ≠ 0 := by
    intro h
    apply hne
    have h1 : m12 / r = m21 / r' := by rw [hδ] at h; linarith
    rw [div_eq_div_iff hr0 hr0'] at h1
    rw [hr, hr'] at h1
    linarith
  have hprod : 0 < (m12 / r) * (m21 / r') := by
    rw [div_mul_div_comm]; exact div_pos h12 hrr
  have hz2 : 0 < z ^ 2 := by
    have : z ^ 2 = δ ^ 2 + (m12 / r) * (m21 / r') := by rw [hz, hδ]; ring
    rw [this]; positivity
  have hz0 : z ≠ 0 := by rintro h; rw [h] at hz2; norm_num at hz2
  set q1 := m13 * m31 with hq1
  set q2 := m23 * m32 with hq2
  have hqq : q1 * q2 = r * r' := by rw [hq1, hq2, hr, hr']; ring
  set B := 1 / (z ^ 2) ^ 2 + (q1 + q2) / z ^ 2 with hB
  have hBpos : 0 < B := by positivity
  set η := q1 * q2 * δ ^ 2 / B with hη
  have hηpos : 0 < η := by
    have : 0 < δ ^ 2 := by positivity
    positivity
  set y := z ^ 2 + η with hy
  have hypos : 0 < y := by positivity
  set θ := Real.sqrt η / y with hθ
  have hθpos : 0 < θ := div_pos (Real.sqrt_pos.mpr hηpos) hypos
  have hθ2 : θ ^ 2 * y ^ 2 = η := by
    rw [hθ, div_pow, Real.sq_sqrt hηpos.le]; field_simp
  set c := z / y with hc
  set s := 1 + q1 * y with hs
  set t := 1 + q2 * y with ht
  have hspos : 0 < s := by positivity
  have htpos : 0 < t := by positivity
  -- real and imaginary part of the product of the effective couplings
  set κ := (m12 - r * z) * (m21 - r' * z) - r * r' * η with hκ
  set κ' := -(y * (r * (m21 - r' * z) + r' * (m12 - r * z))) with hκ'
  have hκv : κ = -(q1 * q2 * δ ^ 2) - q1 * q2 * η := by
    have e1 : m12 - r * z = r * δ := by rw [hz, hδ]; field_simp; ring
    have e2 : m21 - r' * z = -(r' * δ) := by rw [hz, hδ]; field_simp; ring
    rw [hκ, e1, e2, hqq]; ring
  have hneg : κ + θ ^ 2 * (s * t) ≤ 0 := by
    have h1 : θ ^ 2 = η / y ^ 2 := by rw [eq_div_iff (by positivity)]; exact hθ2
    have h2 : θ ^ 2 * (s * t) = η * (1 / y ^ 2 + (q1 + q2) / y) + q1 * q2 * η := by
      rw [h1, hs, ht]; field_simp; ring
    have h3 : 1 / y ^ 2 + (q1 + q2) / y ≤ B := by
      have hzy : z ^ 2 ≤ y := by linarith
      refine add_le_add ?_ ?_
      · exact one_div_le_one_div_of_le (by positivity) (pow_le_pow_left₀ hz2.le hzy 2)
      · exact div_le_div_of_nonneg_left (by positivity) hz2 hzy
    have h4 : η * B = q1 * q2 * δ ^ 2 := by rw [hη]; field_simp
    have := mul_le_mul_of_nonneg_left h3 hηpos.le
    rw [h2, hκv]
    linarith
  obtain ⟨x, hx⟩ : ∃ x : ℝ, t * (x * x) + κ' * x + s * (κ + θ ^ 2 * (s * t)) = 0 := by
    refine exists_quadratic_eq_zero htpos.ne' ⟨Real.sqrt (discrim t κ' (s * (κ + θ ^ 2 * (s * t)))), ?_⟩
    rw [Real.mul_self_sqrt]
    unfold discrim
    have : 0 ≤ -(4 * t * (s * (κ + θ ^ 2 * (s * t)))) := by
      have := mul_nonneg (mul_nonneg (by positivity : (0 : ℝ) ≤ 4 * t) hspos.le) (neg_nonneg.mpr hneg)
      calc (0 : ℝ) ≤ 4 * t * s * -(κ + θ ^ 2 * (s * t)) := this
        _ = _ := by ring
    exact (add_nonneg (sq_nonneg κ') this).trans_eq (by ring)
  set y' := -(κ' + t * x) / s with hy'
  have hy1 : s * y' + t * x = -κ' := by rw [hy']; field_simp; ring
  have hy2 : x * y' = κ + θ ^ 2 * (s * t) := by
    rw [hy', mul_div_assoc', div_eq_iff hspos.ne']; linarith
  obtain ⟨u₁, u₂, u₃, h0, h1, h2, h3⟩ := cycle_vector (m12 := m12) (m13 := m13) (m21 := m21) (m23 := m23) (m31 := m31)
    (m32 := m32) hr hr' hq1 hq2 hs ht hc hy hypos hθpos hr0 hθ2 (hy1.trans (neg_neg _)) hy2
  exact ⟨_, _, c, θ, u₁, u₂, u₃, hθpos, h0, h1, h2, h3⟩

/-- `complex_of_cycle` for three coupled points with weights. -/
theorem complex_of_cycle_weighted (c : ℝ) (b : Fin 3 → Fin 3 → ℝ) (w : Fin 3 → ℝ) (hc : 0 < c) (hw : ∀ j, 0 < w j)
    (h01 : 0 < b 0 1 * b 1 0) (h02 : 0 < b 0 2 * b 2 0) (h12 : 0 < b 1 2 * b 2 1)
    (hne : b 0 1 * b 1 2 * b 2 0 ≠ b 0 2 * b 2 1 * b 1 0) :
    ∃ (v : Fin 3 → ℝ) (θ : ℝ) (U : Fin 3 → ℂ), 0 < θ ∧ U 0 ≠ 0 ∧
      ∀ j, ∑ j', ((-c * b j j' : ℝ) : ℂ) * U j' + w j * v j * U j = θ * Complex.I * (w j * U j) := by
  have hq : ∀ i j, 0 < b i j * b j i → 0 < (-c * b i j / w i) * (-c * b j i / w j) := by
    intro i j h
    have := hw i; have := hw j
    have e : (-c * b i j / w i) * (-c * b j i / w j) = c ^ 2 * (b i j * b j i) / (w i * w j) := by
      field_simp
    rw [e]; positivity
  obtain ⟨x, y, z, θ, u₁, u₂, u₃, hθ, hu, e1, e2, e3⟩ := complex_of_cycle (-c * b 0 1 / w 0) (-c * b 0 2 / w 0)
    (-c * b 1 0 / w 1) (-c * b 1 2 / w 1) (-c * b 2 0 / w 2) (-c * b 2 1 / w 2) (hq 0 1 h01) (hq 0 2 h02) (hq 1 2 h12)
    (by
      intro h
      have h0 := (hw 0).ne'
      have h1 := (hw 1).ne'
      have h2 := (hw 2).ne'
      apply hne
      field_simp at h
      linarith)
  have w0 : (w 0 : ℂ) ≠ 0 := by exact_mod_cast (hw 0).ne'
  have w1 : (w 1 : ℂ) ≠ 0 := by exact_mod_cast (hw 1).ne'
  have w2 : (w 2 : ℂ) ≠ 0 := by exact_mod_cast (hw 2).ne'
  refine ⟨![x + c * b 0 0 / w 0, y + c * b 1 1 / w 1, z + c * b 2 2 / w 2], θ, ![u₁, u₂, u₃], hθ, hu, fun j => ?_⟩
  push_cast at e1 e2 e3
  fin_cases j
  · simp only [Fin.sum_univ_three, Fin.zero_eta, Matrix.cons_val]
    push_cast
    have : (θ : ℂ) * Complex.I * (w 0 * u₁) = w 0 * (θ * Complex.I * u₁) := by ring
    rw [this, ← e1]
    field_simp
    ring
  · simp only [Fin.sum_univ_three, Fin.mk_one, Matrix.cons_val]
    push_cast
    have : (θ : ℂ) * Complex.I * (w 1 * u₂) = w 1 * (θ * Complex.I * u₂) := by ring
    rw [this, ← e2]
    field_simp
    ring
  · simp only [Fin.sum_univ_three, Fin.reduceFinMk, Matrix.cons_val]
    push_cast
    have : (θ : ℂ) * Complex.I * (w 2 * u₃) = w 2 * (θ * Complex.I * u₃) := by ring
    rw [this, ← e3]
    field_simp
    ring

end Verif.Three
