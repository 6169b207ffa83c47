import Verif.Model.Hartree
import Mathlib.Analysis.SpecialFunctions.Integrals.Basic
import Mathlib.MeasureTheory.Integral.IntervalIntegral.Basic
import Mathlib.MeasureTheory.Integral.Prod
import Mathlib.RingTheory.PowerSeries.Derivative

/-! # Legendre polynomials: Laplace's integral and the averaged addition theorem -/

namespace Verif
namespace Legendre
open Hartree intervalIntegral

noncomputable section

/-- `A + B cos φ + C sin φ` -/
def trig (A B C : ℂ) (φ : ℝ) : ℂ := A + B * (Real.cos φ : ℂ) + C * (Real.sin φ : ℂ)

theorem trig_cont (A B C : ℂ) : Continuous (trig A B C) := by
  unfold trig
  have h1 : Continuous fun φ : ℝ => (Real.cos φ : ℂ) := Complex.continuous_ofReal.comp Real.continuous_cos
  have h2 : Continuous fun φ : ℝ => (Real.sin φ : ℂ) := Complex.continuous_ofReal.comp Real.continuous_sin
  exact (continuous_const.add (continuous_const.mul h1)).add (continuous_const.mul h2)

theorem trig_deriv (A B C : ℂ) (φ : ℝ) : HasDerivAt (trig A B C) (trig 0 C (-B) φ) φ := by
  have h1 : HasDerivAt (fun φ : ℝ => (Real.cos φ : ℂ)) ((-Real.sin φ : ℝ) : ℂ) φ := (Real.hasDerivAt_cos φ).ofReal_comp
  have h2 : HasDerivAt (fun φ : ℝ => (Real.sin φ : ℂ)) ((Real.cos φ : ℝ) : ℂ) φ := (Real.hasDerivAt_sin φ).ofReal_comp
  refine (((h1.const_mul B).const_add A).add (h2.const_mul C)).congr_deriv ?_
  unfold trig
  push_cast
  ring

/-- `∫₀^{2π} (A + B cos φ + C sin φ)^l` -/
def J (A B C : ℂ) (l : ℕ) : ℂ := ∫ φ in (0 : ℝ)..(2 * Real.pi), trig A B C φ ^ l

theorem J_zero (A B C : ℂ) : J A B C 0 = 2 * Real.pi := by simp [J]

theorem J_rec (A B C : ℂ) (l : ℕ) :
    (l + 2) * J A B C (l + 2) = (2 * l + 3) * A * J A B C (l + 1) + (l + 1) * (B ^ 2 + C ^ 2 - A ^ 2) * J A B C l := by
  have hd : ∀ φ : ℝ, HasDerivAt (fun φ => trig 0 C (-B) φ * trig A B C φ ^ (l + 1))
      (-(l + 2) * trig A B C φ ^ (l + 2) + (2 * l + 3) * A * trig A B C φ ^ (l + 1) +
        (l + 1) * (B ^ 2 + C ^ 2 - A ^ 2) * trig A B C φ ^ l) φ := by
    intro φ
    refine ((trig_deriv 0 C (-B) φ).mul ((trig_deriv A B C φ).fun_pow (l + 1))).congr_deriv ?_
    have h : (Real.sin φ : ℂ) ^ 2 + (Real.cos φ : ℂ) ^ 2 = 1 := by
      have := Real.sin_sq_add_cos_sq φ
      exact_mod_cast this
    have e1 : trig 0 (-B) (-C) φ = A - trig A B C φ := by unfold trig; ring
    have e2 : trig 0 C (-B) φ ^ 2 = B ^ 2 + C ^ 2 - (trig A B C φ - A) ^ 2 := by
      unfold trig; linear_combination (B ^ 2 + C ^ 2) * h
    rw [e1]
    push_cast
    linear_combination ((l : ℂ) + 1) * trig A B C φ ^ l * e2
  have hi : ∀ m, IntervalIntegrable (fun φ => trig A B C φ ^ m) MeasureTheory.volume 0 (2 * Real.pi) :=
    fun m => ((trig_cont A B C).pow m).intervalIntegrable _ _
  have h := integral_eq_sub_of_hasDerivAt (a := 0) (b := 2 * Real.pi) (fun φ _ => hd φ)
    ((((hi _).const_mul _).add ((hi _).const_mul _)).add ((hi _).const_mul _))
  rw [integral_add (((hi _).const_mul _).add ((hi _).const_mul _)) ((hi _).const_mul _),
    integral_add ((hi _).const_mul _) ((hi _).const_mul _), integral_const_mul, integral_const_mul, integral_const_mul] at h
  have p : ∀ A B C, trig A B C (2 * Real.pi) = trig A B C 0 := fun A B C => by simp [trig]
  rw [p, p, sub_self] at h
  unfold J
  linear_combination -h

theorem J_one (A B C : ℂ) : J A B C 1 = 2 * Real.pi * A := by
  have hd : ∀ φ : ℝ, HasDerivAt (trig 0 C (-B)) (A - trig A B C φ ^ 1) φ := by
    intro φ
    refine (trig_deriv 0 C (-B) φ).congr_deriv ?_
    unfold trig; ring
  have hi : IntervalIntegrable (fun φ => trig A B C φ ^ 1) MeasureTheory.volume 0 (2 * Real.pi) :=
    ((trig_cont A B C).pow 1).intervalIntegrable _ _
  have h := integral_eq_sub_of_hasDerivAt (a := 0) (b := 2 * Real.pi) (fun φ _ => hd φ)
    ((continuous_const.intervalIntegrable _ _).sub hi)
  rw [integral_sub (continuous_const.intervalIntegrable _ _) hi] at h
  have p : ∀ A B C, trig A B C (2 * Real.pi) = trig A B C 0 := fun A B C => by simp [trig]
  rw [p, sub_self] at h
  unfold J
  simp at h ⊢
  linear_combination -h

/-- Laplace's integral, homogeneous form. -/
theorem J_legendre (A B C κ : ℂ) (x : ℝ) (hA : A = κ * x) (hS : B ^ 2 + C ^ 2 = A ^ 2 - κ ^ 2) (l : ℕ) :
    J A B C l = 2 * Real.pi * κ ^ l * (legendre l x : ℂ) := by
  induction l using Nat.twoStepInduction with
  | zero => simp [J_zero, legendre]
  | one => rw [J_one, hA]; simp [legendre]; ring
  | more l h1 h2 =>
    have h := J_rec A B C l
    rw [h1, h2, hS] at h
    have h0 : ((l : ℂ) + 2) ≠ 0 := by exact_mod_cast (by omega : l + 2 ≠ 0)
    refine mul_left_cancel₀ h0 (h.trans ?_)
    rw [hA]
    simp only [legendre]
    push_cast
    field_simp
    ring

/-- `|P_l(x)| ≤ 1` for `|x| ≤ 1`. -/
theorem abs_legendre_le (l : ℕ) (x : ℝ) (hx : x ^ 2 ≤ 1) : |legendre l x| ≤ 1 := by
  have h := J_legendre x (Complex.I * Real.sqrt (1 - x ^ 2)) 0 1 x (by ring) (by
    have h1 : (Real.sqrt (1 - x ^ 2) : ℂ) ^ 2 = 1 - x ^ 2 := by
      have := Real.sq_sqrt (show 0 ≤ 1 - x ^ 2 by linarith)
      exact_mod_cast this
    rw [mul_pow, Complex.I_sq, h1]; ring) l
  have hb : ‖J x (Complex.I * Real.sqrt (1 - x ^ 2)) 0 l‖ ≤ 1 * |2 * Real.pi - 0| := by
    unfold J
    refine norm_integral_le_of_norm_le_const fun φ _ => ?_
    rw [norm_pow]
    refine pow_le_one₀ (norm_nonneg _) ?_
    have e : trig x (Complex.I * Real.sqrt (1 - x ^ 2)) 0 φ = ⟨x, Real.sqrt (1 - x ^ 2) * Real.cos φ⟩ := by
      unfold trig
      apply Complex.ext <;> simp [-Complex.ofReal_cos, -Complex.ofReal_sin]
    rw [e, ← sq_le_sq₀ (norm_nonneg _) zero_le_one, ← Complex.normSq_eq_norm_sq, Complex.normSq_mk]
    have h1 := Real.mul_self_sqrt (show 0 ≤ 1 - x ^ 2 by linarith)
    have h2 := Real.cos_sq_le_one φ
    nlinarith [mul_nonneg (show 0 ≤ 1 - x ^ 2 by linarith) (sub_nonneg.mpr h2)]
  rw [h, one_pow, mul_one, norm_mul, norm_mul] at hb
  simp only [Complex.norm_real, Real.norm_eq_abs, Complex.norm_ofNat, sub_zero, one_mul, abs_mul] at hb
  have hp := Real.pi_pos
  rw [abs_of_pos hp, abs_two] at hb
  have : 0 < 2 * Real.pi := by linarith
  nlinarith [abs_nonneg (legendre l x)]

theorem swap (f : ℝ → ℝ → ℂ) (hf : Continuous (Function.uncurry f)) {a b : ℝ} (hab : a ≤ b) :
    ∫ x in a..b, ∫ y in a..b, f x y = ∫ y in a..b, ∫ x in a..b, f x y := by
  simp only [integral_of_le hab]
  refine MeasureTheory.integral_integral_swap ?_
  rw [MeasureTheory.Measure.prod_restrict]
  have : MeasureTheory.IntegrableOn (Function.uncurry f) (Set.Icc a b ×ˢ Set.Icc a b) :=
    hf.continuousOn.integrableOn_compact (isCompact_Icc.prod isCompact_Icc)
  exact this.mono_set (Set.prod_mono Set.Ioc_subset_Icc_self Set.Ioc_subset_Icc_self)

theorem mul_div_root {z y : ℝ} : z = Real.sqrt (z ^ 2 + y ^ 2) * (z / Real.sqrt (z ^ 2 + y ^ 2)) := by
  by_cases h : Real.sqrt (z ^ 2 + y ^ 2) = 0
  · have : z ^ 2 + y ^ 2 = 0 := (Real.sqrt_eq_zero (by positivity)).mp h
    have : z = 0 := by nlinarith [sq_nonneg z, sq_nonneg y]
    simp [this]
  · field_simp

/-- Addition theorem, averaged over the azimuth. -/
theorem addition (z y z' y' : ℝ) (l : ℕ) :
    (∫ φ in (0 : ℝ)..(2 * Real.pi), (Real.sqrt (z ^ 2 + y ^ 2) * Real.sqrt (z' ^ 2 + y' ^ 2)) ^ l *
      legendre l ((z * z' + y * y' * Real.cos φ) / (Real.sqrt (z ^ 2 + y ^ 2) * Real.sqrt (z' ^ 2 + y' ^ 2)))) =
    2 * Real.pi * (Real.sqrt (z ^ 2 + y ^ 2) ^ l * legendre l (z / Real.sqrt (z ^ 2 + y ^ 2))) *
      (Real.sqrt (z' ^ 2 + y' ^ 2) ^ l * legendre l (z' / Real.sqrt (z' ^ 2 + y' ^ 2))) := by
  set ρ := Real.sqrt (z ^ 2 + y ^ 2) with hρ
  set ρ' := Real.sqrt (z' ^ 2 + y' ^ 2) with hρ'
  have q : ρ ^ 2 = z ^ 2 + y ^ 2 := Real.sq_sqrt (by positivity)
  have q' : ρ' ^ 2 = z' ^ 2 + y' ^ 2 := Real.sq_sqrt (by positivity)
  have qc : (ρ : ℂ) ^ 2 = (z : ℂ) ^ 2 + (y : ℂ) ^ 2 := by exact_mod_cast q
  have qc' : (ρ' : ℂ) ^ 2 = (z' : ℂ) ^ 2 + (y' : ℂ) ^ 2 := by exact_mod_cast q'
  have cs : ∀ φ : ℝ, (Real.sin φ : ℂ) ^ 2 + (Real.cos φ : ℂ) ^ 2 = 1 := fun φ => by
    exact_mod_cast Real.sin_sq_add_cos_sq φ
  -- the form as a function of either angle
  have two : ∀ φ ψ : ℝ,
      trig (z * z' + y * y' * Real.cos φ) (Complex.I * (y * z' - z * y' * Real.cos φ)) (Complex.I * ρ * y' * Real.sin φ) ψ =
      trig (z' * trig z (Complex.I * y) 0 ψ) (y' * (y - Complex.I * z * Real.cos ψ)) (y' * (Complex.I * ρ * Real.sin ψ)) φ := by
    intro φ ψ
    unfold trig
    ring
  have hψ : ∀ φ : ℝ, J (z * z' + y * y' * Real.cos φ) (Complex.I * (y * z' - z * y' * Real.cos φ))
      (Complex.I * ρ * y' * Real.sin φ) l =
      2 * Real.pi * ((ρ * ρ' : ℝ) : ℂ) ^ l * (legendre l ((z * z' + y * y' * Real.cos φ) / (ρ * ρ')) : ℂ) := by
    intro φ
    refine J_legendre _ _ _ ((ρ * ρ' : ℝ) : ℂ) _ ?_ ?_ l
    · have : z * z' + y * y' * Real.cos φ = ρ * ρ' * ((z * z' + y * y' * Real.cos φ) / (ρ * ρ')) := by
        by_cases h : ρ * ρ' = 0
        · have h2 : (ρ * ρ') ^ 2 = 0 := by rw [h]; ring
          rw [mul_pow, q, q'] at h2
          rcases mul_eq_zero.mp h2 with h3 | h3
          · have : z = 0 := by nlinarith [sq_nonneg z, sq_nonneg y]
            have : y = 0 := by nlinarith [sq_nonneg z, sq_nonneg y]
            simp [*]
          · have : z' = 0 := by nlinarith [sq_nonneg z', sq_nonneg y']
            have : y' = 0 := by nlinarith [sq_nonneg z', sq_nonneg y']
            simp [*]
        · rw [mul_div_cancel₀ _ h]
      exact_mod_cast this
    · push_cast
      rw [← Complex.ofReal_cos, ← Complex.ofReal_sin, mul_pow (ρ : ℂ), qc']
      have := cs φ
      linear_combination ((y * z' - z * y' * Real.cos φ) ^ 2 + (ρ : ℂ) ^ 2 * y' ^ 2 * Real.sin φ ^ 2) * Complex.I_sq -
        (ρ : ℂ) ^ 2 * y' ^ 2 * this + ((z' : ℂ) ^ 2 + y' ^ 2 * Real.cos φ ^ 2) * qc
  have hφ : ∀ ψ : ℝ, J (z' * trig z (Complex.I * y) 0 ψ) (y' * (y - Complex.I * z * Real.cos ψ))
      (y' * (Complex.I * ρ * Real.sin ψ)) l =
      2 * Real.pi * (ρ' * trig z (Complex.I * y) 0 ψ) ^ l * (legendre l (z' / ρ') : ℂ) := by
    intro ψ
    refine J_legendre _ _ _ _ _ ?_ ?_ l
    · have := mul_div_root (z := z') (y := y')
      rw [← hρ'] at this
      have : (z' : ℂ) = ρ' * ((z' / ρ' : ℝ) : ℂ) := by exact_mod_cast this
      linear_combination trig z (Complex.I * y) 0 ψ * this
    · rw [mul_pow (ρ' : ℂ), qc']
      unfold trig
      have := cs ψ
      linear_combination (y' ^ 2 * (z ^ 2 * Real.cos ψ ^ 2 + (ρ : ℂ) ^ 2 * Real.sin ψ ^ 2 + y ^ 2 * Real.cos ψ ^ 2) : ℂ) * Complex.I_sq -
        (y' : ℂ) ^ 2 * (z ^ 2 + y ^ 2) * this - (y' : ℂ) ^ 2 * Real.sin ψ ^ 2 * qc
  have h0 : J z (Complex.I * y) 0 l = 2 * Real.pi * (ρ : ℂ) ^ l * (legendre l (z / ρ) : ℂ) := by
    refine J_legendre _ _ _ _ _ ?_ ?_ l
    · have := mul_div_root (z := z) (y := y)
      rw [← hρ] at this
      exact_mod_cast this
    · rw [qc]
      linear_combination (y : ℂ) ^ 2 * Complex.I_sq
  have hsw := swap (fun φ ψ => trig (z * z' + y * y' * Real.cos φ) (Complex.I * (y * z' - z * y' * Real.cos φ))
    (Complex.I * ρ * y' * Real.sin φ) ψ ^ l) (by
      unfold trig
      have c1 : Continuous fun x : ℝ × ℝ => (Real.cos x.1 : ℂ) := by fun_prop
      have c2 : Continuous fun x : ℝ × ℝ => (Real.cos x.2 : ℂ) := by fun_prop
      have c3 : Continuous fun x : ℝ × ℝ => (Real.sin x.1 : ℂ) := by fun_prop
      have c4 : Continuous fun x : ℝ × ℝ => (Real.sin x.2 : ℂ) := by fun_prop
      simp only [Function.uncurry_def]
      fun_prop) (show (0 : ℝ) ≤ 2 * Real.pi by positivity)
  have e1 : (∫ φ in (0 : ℝ)..(2 * Real.pi), ∫ ψ in (0 : ℝ)..(2 * Real.pi),
      trig (z * z' + y * y' * Real.cos φ) (Complex.I * (y * z' - z * y' * Real.cos φ))
        (Complex.I * ρ * y' * Real.sin φ) ψ ^ l) = 2 * Real.pi * ∫ φ in (0 : ℝ)..(2 * Real.pi),
      (((ρ * ρ') ^ l * legendre l ((z * z' + y * y' * Real.cos φ) / (ρ * ρ')) : ℝ) : ℂ) := by
    rw [← integral_const_mul]
    refine integral_congr fun φ _ => ?_
    have := hψ φ
    unfold J at this
    refine this.trans ?_
    push_cast
    ring
  have e2 : (∫ ψ in (0 : ℝ)..(2 * Real.pi), ∫ φ in (0 : ℝ)..(2 * Real.pi),
      trig (z * z' + y * y' * Real.cos φ) (Complex.I * (y * z' - z * y' * Real.cos φ))
        (Complex.I * ρ * y' * Real.sin φ) ψ ^ l) =
      2 * Real.pi * (ρ' ^ l * (legendre l (z' / ρ') : ℂ)) * (2 * Real.pi * (ρ : ℂ) ^ l * (legendre l (z / ρ) : ℂ)) := by
    rw [← h0]
    unfold J
    rw [← integral_const_mul]
    refine integral_congr fun ψ _ => ?_
    have := hφ ψ
    unfold J at this
    simp only [two]
    rw [this]
    ring
  rw [e1, e2] at hsw
  have hpi : (2 * Real.pi : ℂ) ≠ 0 := by
    have := Real.pi_pos.ne'
    simp [this]
  rw [intervalIntegral.integral_ofReal] at hsw
  have := mul_left_cancel₀ hpi (hsw.trans (by push_cast; ring : _ = 2 * Real.pi *
    (((2 * Real.pi * (ρ ^ l * legendre l (z / ρ)) * (ρ' ^ l * legendre l (z' / ρ')) : ℝ)) : ℂ)))
  exact_mod_cast this

open PowerSeries in
theorem genFormal (x : ℝ) : (1 - C (2 * x) * X + X ^ 2) * (PowerSeries.mk fun n => legendre n x) ^ 2 = (1 : PowerSeries ℝ) := by
  set g : PowerSeries ℝ := PowerSeries.mk fun n => legendre n x with hg
  have ode : (1 - C (2 * x) * X + X ^ 2) * d⁄dX ℝ g = (C x - X) * g := by
    rw [show (1 - C (2 * x) * X + X ^ 2) * d⁄dX ℝ g = d⁄dX ℝ g - C (2 * x) * (X * d⁄dX ℝ g) + X * (X * d⁄dX ℝ g) by ring,
      sub_mul]
    ext n
    rcases n with _ | _ | n <;>
      simp only [map_add, map_sub, coeff_C_mul, coeff_succ_X_mul, coeff_zero_X_mul, coeff_derivative, hg, coeff_mk, legendre]
    · simp
    · push_cast; ring
    · push_cast
      field_simp
      ring
  apply PowerSeries.derivative.ext
  · rw [derivative_one, Derivation.leibniz, Derivation.leibniz_pow]
    have : d⁄dX ℝ (1 - C (2 * x) * X + X ^ 2 : PowerSeries ℝ) = - C (2 * x) + 2 * X := by
      rw [map_add, map_sub, Derivation.leibniz, derivative_pow, derivative_C, derivative_X, derivative_one]
      simp
    rw [this]
    have h2 : (C (2 * x) : PowerSeries ℝ) = 2 * C x := by rw [map_mul]; rfl
    simp only [smul_eq_mul, nsmul_eq_mul, Nat.cast_ofNat]
    linear_combination 2 * g * ode - g ^ 2 * h2
  · simp [hg, legendre]

theorem gen_summable (x t : ℝ) (hx : x ^ 2 ≤ 1) (ht : |t| < 1) : Summable fun n => ‖legendre n x * t ^ n‖ := by
  refine Summable.of_nonneg_of_le (fun _ => norm_nonneg _) (fun n => ?_) (summable_geometric_of_lt_one (abs_nonneg t) ht)
  rw [norm_mul, norm_pow, Real.norm_eq_abs, Real.norm_eq_abs]
  exact mul_le_of_le_one_left (by positivity) (abs_legendre_le n x hx)

theorem gen_sq (x t : ℝ) (hx : x ^ 2 ≤ 1) (ht : |t| < 1) :
    (1 - 2 * x * t + t ^ 2) * (∑' n, legendre n x * t ^ n) ^ 2 = 1 := by
  set c : ℕ → ℝ := fun n => ∑ kl ∈ Finset.antidiagonal n, legendre kl.1 x * legendre kl.2 x with hc
  have hs := gen_summable x t hx ht
  have e : ∀ n, ∑ kl ∈ Finset.antidiagonal n, legendre kl.1 x * t ^ kl.1 * (legendre kl.2 x * t ^ kl.2) = c n * t ^ n := by
    intro n
    rw [hc, Finset.sum_mul]
    refine Finset.sum_congr rfl fun kl h => ?_
    rw [← Finset.mem_antidiagonal.mp h, pow_add]
    ring
  have hW : (∑' n, legendre n x * t ^ n) ^ 2 = ∑' n, c n * t ^ n := by
    rw [sq, tsum_mul_tsum_eq_tsum_sum_antidiagonal_of_summable_norm hs hs]
    exact tsum_congr e
  have hcs : Summable fun n => c n * t ^ n := by
    have := (summable_norm_sum_mul_antidiagonal_of_summable_norm hs hs).of_norm
    simpa only [e] using this
  have hrec : ∀ n, c (n + 2) = 2 * x * c (n + 1) - c n := by
    intro n
    have h := congrArg (PowerSeries.coeff (n + 2)) (genFormal x)
    rw [show (1 - PowerSeries.C (2 * x) * PowerSeries.X + PowerSeries.X ^ 2) * (PowerSeries.mk fun n => legendre n x) ^ 2 =
      (PowerSeries.mk fun n => legendre n x) ^ 2 - PowerSeries.C (2 * x) * (PowerSeries.X * (PowerSeries.mk fun n => legendre n x) ^ 2)
      + PowerSeries.X * (PowerSeries.X * (PowerSeries.mk fun n => legendre n x) ^ 2) by ring] at h
    simp only [map_add, map_sub, PowerSeries.coeff_C_mul, PowerSeries.coeff_succ_X_mul, PowerSeries.coeff_one] at h
    simp only [sq, PowerSeries.coeff_mul, PowerSeries.coeff_mk] at h
    rw [if_neg (by omega)] at h
    simp only [hc]
    linarith
  have h0 : c 0 = 1 := by simp [hc, legendre]
  have h1 : c 1 = 2 * x := by
    simp only [hc]
    rw [Finset.Nat.antidiagonal_succ]
    simp [legendre]
    ring
  have s1 := hcs.sum_add_tsum_nat_add 2
  have s2 := hcs.sum_add_tsum_nat_add 1
  have hcs1 : Summable fun n => c (n + 1) * t ^ (n + 1) := (summable_nat_add_iff 1).mpr hcs
  have e2 : ∑' n, c (n + 2) * t ^ (n + 2) = 2 * x * t * (∑' n, c (n + 1) * t ^ (n + 1)) - t ^ 2 * ∑' n, c n * t ^ n := by
    rw [← tsum_mul_left, ← tsum_mul_left, ← (hcs1.mul_left _).tsum_sub (hcs.mul_left _)]
    refine tsum_congr fun n => ?_
    rw [hrec]
    ring
  rw [hW]
  simp only [Finset.sum_range_succ, Finset.sum_range_zero, h0, h1] at s1 s2
  rw [e2] at s1
  linear_combination (-1 : ℝ) * s1 + 2 * x * t * s2

/-- The generating function of the Legendre polynomials. -/
theorem gen (x t : ℝ) (hx : x ^ 2 ≤ 1) (ht : |t| < 1) :
    HasSum (fun n => legendre n x * t ^ n) (1 / Real.sqrt (1 - 2 * x * t + t ^ 2)) := by
  have hs := (gen_summable x t hx ht).of_norm
  have hq := gen_sq x t hx ht
  have hpos : 0 < ∑' n, legendre n x * t ^ n := by
    by_contra hneg
    have hc : ContinuousOn (fun s : ℝ => ∑' n, legendre n x * (s * t) ^ n) (Set.Icc 0 1) := by
      refine continuousOn_tsum (u := fun n => |t| ^ n) (fun n => by fun_prop) (summable_geometric_of_lt_one (abs_nonneg t) ht) ?_
      intro n s hs
      rw [norm_mul, norm_pow, Real.norm_eq_abs, Real.norm_eq_abs, abs_mul, abs_of_nonneg hs.1]
      have h1 := abs_legendre_le n x hx
      have h2 : (s * |t|) ^ n ≤ |t| ^ n := pow_le_pow_left₀ (mul_nonneg hs.1 (abs_nonneg t)) (mul_le_of_le_one_left (abs_nonneg t) hs.2) n
      exact (mul_le_of_le_one_left (pow_nonneg (mul_nonneg hs.1 (abs_nonneg t)) n) h1).trans h2
    have h0 : (∑' n, legendre n x * (0 * t) ^ n) = 1 := by
      rw [tsum_eq_single 0]
      · simp [legendre]
      · intro n hn; simp [hn]
    have hiv := intermediate_value_Icc' zero_le_one hc
    simp only [h0, one_mul] at hiv
    obtain ⟨s, hs, hz⟩ := hiv ⟨not_lt.mp hneg, zero_le_one⟩
    have := gen_sq x (s * t) hx (by
      rw [abs_mul, abs_of_nonneg hs.1]
      exact (mul_le_of_le_one_left (abs_nonneg t) hs.2).trans_lt ht)
    simp only at hz
    rw [hz] at this
    norm_num at this
  have hv : 1 / Real.sqrt (1 - 2 * x * t + t ^ 2) = ∑' n, legendre n x * t ^ n := by
    have h1 : 1 - 2 * x * t + t ^ 2 = (1 / ∑' n, legendre n x * t ^ n) ^ 2 := by
      rw [div_pow, one_pow, eq_div_iff (by positivity)]
      exact hq
    rw [h1, Real.sqrt_sq (by positivity), one_div_one_div]
  rw [hv]
  exact hs.hasSum

/-- The remainder after `N` terms. -/
theorem gen_error (x t : ℝ) (hx : x ^ 2 ≤ 1) (h0 : 0 ≤ t) (ht : t < 1) (N : ℕ) :
    |1 / Real.sqrt (1 - 2 * x * t + t ^ 2) - ∑ n ∈ Finset.range N, legendre n x * t ^ n| ≤ t ^ N / (1 - t) := by
  have hab : |t| < 1 := by rwa [abs_of_nonneg h0]
  have hs := (gen_summable x t hx hab).of_norm
  rw [← (gen x t hx hab).tsum_eq, ← hs.sum_add_tsum_nat_add N, add_sub_cancel_left]
  have hg := summable_geometric_of_lt_one h0 ht
  have := tsum_of_norm_bounded (f := fun n => legendre (n + N) x * t ^ (n + N)) ((hasSum_geometric_of_lt_one h0 ht).mul_left (t ^ N))
    (fun n => by
      rw [norm_mul, norm_pow, Real.norm_eq_abs, Real.norm_eq_abs, abs_of_nonneg h0, ← pow_add, add_comm N]
      exact mul_le_of_le_one_left (by positivity) (abs_legendre_le _ x hx))
  rw [Real.norm_eq_abs] at this
  rwa [div_eq_mul_inv]

end
end Legendre
end Verif
