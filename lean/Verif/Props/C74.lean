import Verif.Props.C10
import Mathlib.Analysis.Calculus.Taylor
import Mathlib.Analysis.SpecialFunctions.Trigonometric.Deriv

/-! # C74: the difference quotients converge to the derivative, with the order of the stencil -/

namespace Verif
open FDC Filter Asymptotics Topology

theorem FDC.taylor_stencil {N : ℕ} (x c : Fin (N + 1) → ℝ) (d : ℕ) (hd : d ≤ N)
    (hm : ∀ n ≤ N, ∑ j, c j * (x j ^ n / (Nat.factorial n : ℝ)) = if n = d then 1 else 0)
    {f : ℝ → ℝ} (hf : ContDiff ℝ N f) (x0 : ℝ) :
    (fun h : ℝ => ∑ j, c j * f (x0 + x j * h) - h ^ d * iteratedDeriv d f x0) =o[𝓝 0] fun h => h ^ N := by
  have key : ∀ h : ℝ, ∑ j, c j * f (x0 + x j * h) - h ^ d * iteratedDeriv d f x0 =
      ∑ j, c j * (f (x0 + x j * h) - taylorWithinEval f N Set.univ x0 (x0 + x j * h)) := by
    intro h
    have e : ∑ j, c j * taylorWithinEval f N Set.univ x0 (x0 + x j * h) = h ^ d * iteratedDeriv d f x0 := by
      simp only [taylor_within_apply, iteratedDerivWithin_univ, add_sub_cancel_left, smul_eq_mul, Finset.mul_sum]
      rw [Finset.sum_comm]
      have : ∀ n ∈ Finset.range (N + 1), ∑ j, c j * ((Nat.factorial n : ℝ)⁻¹ * (x j * h) ^ n * iteratedDeriv n f x0) =
          if n = d then h ^ d * iteratedDeriv d f x0 else 0 := by
        intro n hn
        have h1 := hm n (by simpa [Nat.lt_succ_iff] using hn)
        calc _ = (∑ j, c j * (x j ^ n / (Nat.factorial n : ℝ))) * (h ^ n * iteratedDeriv n f x0) := by
              rw [Finset.sum_mul]
              refine Finset.sum_congr rfl fun j _ => ?_
              rw [mul_pow]; ring
          _ = _ := by
              rw [h1]; split
              · subst_vars; ring
              · ring
      rw [Finset.sum_congr rfl this, Finset.sum_ite_eq' , if_pos (by simp; omega)]
    rw [← e, ← Finset.sum_sub_distrib]
    exact Finset.sum_congr rfl fun j _ => by ring
  rw [show (fun h : ℝ => ∑ j, c j * f (x0 + x j * h) - h ^ d * iteratedDeriv d f x0) = _ from funext key]
  refine IsLittleO.fun_sum fun j _ => IsLittleO.const_mul_left ?_ _
  have ht : Tendsto (fun h : ℝ => x0 + x j * h) (𝓝 0) (𝓝 x0) := by
    have : Continuous fun h : ℝ => x0 + x j * h := by fun_prop
    simpa using this.tendsto 0
  have := (taylor_isLittleO_univ (x₀ := x0) hf).comp_tendsto ht
  refine this.trans_isBigO ?_
  refine IsBigO.of_bound (|x j| ^ N) (Eventually.of_forall fun h => ?_)
  simp [mul_pow]

/-- C74: let `f` have `len(x) - 1` continuous derivatives.  The difference quotient at `x0` with the returned
coefficients and step `h` differs from the `d`-th derivative by `o(h^(len(x)-1-d))`; in particular it converges to
it.  The code zeroes coefficients below `1e-10`, so the exact coefficients must not contain such ones except 0. -/
theorem C74_convergence {N : ℕ} (x : Fin (N + 1) → ℝ) (hx : Function.Injective x) (d : ℕ) (hd : d ≤ N)
    (c : Fin (N + 1) → ℝ) (hr : Returns x d (.ok c))
    (hbig : ∀ c0 : Fin (N + 1) → ℝ,
      (∀ n < N + 1, ∑ j, c0 j * (x j ^ n / (Nat.factorial n : ℝ)) = if n = d then 1 else 0) →
      ∀ j, c0 j ≠ 0 → 1 / 10 ^ 10 ≤ |c0 j|)
    {f : ℝ → ℝ} (hf : ContDiff ℝ N f) (x0 : ℝ) :
    ((fun h : ℝ => (∑ j, c j * f (x0 + x j * h)) / h ^ d - iteratedDeriv d f x0) =o[𝓝[≠] 0] fun h => h ^ (N - d)) ∧
    Tendsto (fun h : ℝ => (∑ j, c j * f (x0 + x j * h)) / h ^ d) (𝓝[≠] 0) (𝓝 (iteratedDeriv d f x0)) := by
  obtain ⟨c', c0, he, hz, hm, -, -⟩ := C10_coefficients x hx d (by omega) _ hr
  obtain rfl : c = c' := Except.ok.inj he
  have hcc : c = c0 := by
    funext j
    rw [hz j]
    split
    · rename_i hlt
      by_contra h
      exact absurd (hbig c0 hm j (Ne.symm h)) (not_le.mpr hlt)
    · rfl
  subst hcc
  have h1 := (FDC.taylor_stencil x c d hd (fun n hn => hm n (by omega)) hf x0).mono (nhdsWithin_le_nhds (s := {0}ᶜ))
  have h2 : (fun h : ℝ => (∑ j, c j * f (x0 + x j * h)) / h ^ d - iteratedDeriv d f x0) =o[𝓝[≠] 0]
      fun h => h ^ (N - d) := by
    have h3 := (isBigO_refl (fun h : ℝ => (h ^ d)⁻¹) (𝓝[≠] 0)).mul_isLittleO h1
    refine h3.congr' ?_ ?_
    · filter_upwards [self_mem_nhdsWithin] with h hh
      have hh : h ^ d ≠ 0 := pow_ne_zero _ hh
      rw [mul_sub, inv_mul_cancel_left₀ hh, div_eq_inv_mul]
    · filter_upwards [self_mem_nhdsWithin] with h hh
      have hh' : h ^ d ≠ 0 := pow_ne_zero _ hh
      rw [← Nat.sub_add_cancel hd, pow_add, Nat.add_sub_cancel]
      field_simp
  refine ⟨h2, ?_⟩
  have h4 : Tendsto (fun h : ℝ => (∑ j, c j * f (x0 + x j * h)) / h ^ d - iteratedDeriv d f x0) (𝓝[≠] 0) (𝓝 0) := by
    have hO : (fun h : ℝ => h ^ (N - d)) =O[𝓝[≠] 0] fun _ => (1 : ℝ) := by
      have : Continuous fun h : ℝ => h ^ (N - d) := by fun_prop
      exact ((this.tendsto 0).isBigO_one ℝ).mono nhdsWithin_le_nhds
    exact (isLittleO_one_iff ℝ).mp (h2.trans_isBigO hO)
  simpa using h4.add_const (iteratedDeriv d f x0)

section Example

/-- The nine-point stencil of every example in the repository, `loc = np.array(range(-4, 5))`. -/
private noncomputable def nine : Fin 9 → ℝ := ![-4, -3, -2, -1, 0, 1, 2, 3, 4]

private theorem nine_inj : Function.Injective nine := by
  have : nine = fun i : Fin 9 => (((i.1 : ℤ) - 4 : ℤ) : ℝ) := by
    funext i; fin_cases i <;> norm_num [nine]
  rw [this]
  intro i j h
  have h : (i.1 : ℤ) - 4 = (j.1 : ℤ) - 4 := Int.cast_injective (α := ℝ) h
  exact Fin.ext (by omega)

private noncomputable def nine1 : Fin 9 → ℝ := ![1/280, -4/105, 1/5, -4/5, 0, 4/5, -1/5, 4/105, -1/280]

private theorem nine1_mom : ∀ n < 9, ∑ j, nine1 j * (nine j ^ n / (Nat.factorial n : ℝ)) = if n = 1 then 1 else 0 := by
  intro n hn
  interval_cases n <;> simp [Fin.sum_univ_succ, nine1, nine, Nat.factorial] <;> norm_num

private theorem nine1_big : ∀ j, nine1 j ≠ 0 → 1 / 10 ^ 10 ≤ |nine1 j| := by
  intro j h
  fin_cases j <;> simp [nine1] at h ⊢ <;> norm_num [abs_of_neg]

private theorem nine1_sol : IsLstsq (table nine) (rhs 9 1) nine1 := by
  rw [isLstsq_iff (table_det_ne_zero nine_inj)]
  funext n
  have h := nine1_mom n.1 n.2
  have : ((table nine).mulVec nine1) n = - ∑ j, nine1 j * (nine j ^ n.1 / (Nat.factorial n.1 : ℝ)) := by
    rw [← Finset.sum_neg_distrib]
    simp only [Matrix.mulVec, dotProduct]
    refine Finset.sum_congr rfl fun j _ => ?_
    unfold table; ring
  rw [this, h]; unfold rhs; split <;> simp

private theorem nine1_ret : Returns nine 1 (.ok nine1) := by
  unfold Returns
  rw [if_pos (by norm_num)]
  refine ⟨nine1, nine1_sol, ?_⟩
  congr 1
  funext j
  unfold zeroSmall
  split
  · rename_i h
    by_contra h0
    exact absurd (nine1_big j h0) (not_le.mpr h)
  · rfl

/-- With the nine-point stencil the first derivative of the sine is approximated at every point with an error of
`o(h^7)`. -/
example (x0 : ℝ) :
    (fun h : ℝ => (∑ j, nine1 j * Real.sin (x0 + nine j * h)) / h ^ 1 - iteratedDeriv 1 Real.sin x0) =o[𝓝[≠] 0]
      fun h => h ^ 7 := by
  refine (C74_convergence nine nine_inj 1 (by norm_num) nine1 nine1_ret ?_ Real.contDiff_sin x0).1
  intro c0 h0
  have : c0 = nine1 := FDC.unique nine_inj nine1_sol fun n hn => by
    have h1 := h0 n hn
    have hf : (Nat.factorial n : ℝ) ≠ 0 := by exact_mod_cast Nat.factorial_ne_zero n
    simp only [← mul_div_assoc] at h1
    rw [← Finset.sum_div, div_eq_iff hf] at h1
    rw [h1]; split
    · subst_vars; simp
    · simp
  rw [this]; exact nine1_big

end Example

end Verif
