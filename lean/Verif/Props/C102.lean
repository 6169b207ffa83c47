import Verif.Lemmas.QuadratureError
import Verif.Lemmas.Spheroid
import Verif.Props.C08_C09
import Mathlib.Analysis.Calculus.ContDiff.Basic
import Mathlib.MeasureTheory.Integral.DominatedConvergence
import Mathlib.Topology.UniformSpace.HeineCantor

/-! # C102: `integrate` converges to the integral -/

namespace Verif
open Spec Init Grid Set Polynomial

/-! ## Functions that are locally close to polynomials -/

theorem locallyPoly_of_close {f : ℝ → ℝ} {b len ε : ℝ} {d : ℕ} (hd : 0 < d) (hε : 0 ≤ ε)
    (h : ∀ s ∈ Icc 0 b, ∀ t ∈ Icc 0 b, |s - t| ≤ len → |f s - f t| ≤ ε) : LocallyPoly f b len ε d := by
  intro u v hu hv huv
  refine ⟨C (f u), lt_of_le_of_lt degree_C_le (by exact_mod_cast hd), fun t ht => ?_⟩
  rw [eval_C]
  refine h t ⟨hu.trans ht.1, ht.2.trans hv⟩ u ⟨hu, ht.1.trans (ht.2.trans hv)⟩ ?_
  rw [abs_of_nonneg (by linarith [ht.1])]
  linarith [ht.2]

theorem locallyPoly_of_smooth {f : ℝ → ℝ} {b len M : ℝ} {n : ℕ} (hM : 0 ≤ M) (hlen : 0 ≤ len) (hf : ContDiff ℝ (n + 1 : ℕ) f)
    (h : ∀ t ∈ Icc 0 b, |iteratedDeriv (n + 1) f t| ≤ M) : LocallyPoly f b len (M * len ^ (n + 1)) (n + 1) := by
  intro u v hu hv huv
  rcases lt_or_ge u v with huv' | hge
  · let q : ℝ[X] := ∑ k ∈ Finset.range (n + 1), C ((k.factorial : ℝ)⁻¹ * iteratedDerivWithin k f (Icc u v) u) * (X - C u) ^ k
    refine ⟨q, ?_, fun t ht => ?_⟩
    · refine lt_of_le_of_lt (degree_sum_le _ _) ((Finset.sup_lt_iff (WithBot.bot_lt_coe _)).mpr fun k hk => ?_)
      refine lt_of_le_of_lt ((degree_mul_le _ _).trans (add_le_add degree_C_le le_rfl)) ?_
      rw [zero_add, degree_pow, degree_X_sub_C, nsmul_one]
      exact_mod_cast Finset.mem_range.mp hk
    · have hq : q.eval t = taylorWithinEval f n (Icc u v) u t := by
        rw [taylor_within_apply, eval_finsetSum]
        refine Finset.sum_congr rfl fun k _ => ?_
        simp only [eval_mul, eval_C, eval_pow, eval_sub, eval_X, smul_eq_mul]
        ring
      rw [hq]
      have hb := taylor_mean_remainder_bound (f := f) (C := M) (n := n) huv'.le (by exact_mod_cast hf.contDiffOn) ht (fun y hy => by
        rw [iteratedDerivWithin_eq_iteratedDeriv (uniqueDiffOn_Icc huv') (by exact_mod_cast hf.contDiffAt) hy]
        exact h y ⟨hu.trans hy.1, hy.2.trans hv⟩)
      rw [Real.norm_eq_abs] at hb
      refine hb.trans ?_
      have h1 : (t - u) ^ (n + 1) ≤ len ^ (n + 1) := pow_le_pow_left₀ (by linarith [ht.1]) (by linarith [ht.2]) _
      have h2 : (1 : ℝ) ≤ n.factorial := by exact_mod_cast Nat.factorial_pos n
      have h3 : 0 ≤ M * (t - u) ^ (n + 1) := mul_nonneg hM (pow_nonneg (by linarith [ht.1]) _)
      calc M * (t - u) ^ (n + 1) / n.factorial ≤ M * (t - u) ^ (n + 1) := div_le_self h3 h2
        _ ≤ _ := mul_le_mul_of_nonneg_left h1 hM
  · refine ⟨C (f u), lt_of_le_of_lt degree_C_le (by exact_mod_cast Nat.succ_pos n), fun t ht => ?_⟩
    have : t = u := le_antisymm (ht.2.trans hge) ht.1
    subst this
    simp only [eval_C, sub_self, abs_zero]
    positivity

/-! ## The weights of one direction -/

/-- A rule with `n` points in the middle of `n` equal intervals: size of the weights, and error for functions that
are locally close to polynomials of degree `< N`. -/
structure Rule (A B : ℝ) (N n : ℕ) (W : Fin n → ℝ) : Prop where
  size : ∑ k, |W k| ≤ A * n
  error : ∀ h : ℝ, 0 < h → ∀ f : ℝ → ℝ, Continuous f → ∀ ε, LocallyPoly f (n * h) (N * h) ε N →
    |h * (∑ k, W k * f (((k.1 : ℝ) + 1 / 2) * h)) - ∫ t in (0 : ℝ)..(n * h), f t| ≤
      A * (n * h) * ε + B * h * (|f 0| + |f (n * h)|)

/-- The weights `NC(N, Nm)` are such a rule, with constants that do not depend on `Nm`. -/
theorem nc_rule {N : ℕ} (hN : 2 ≤ N) (hN' : N ≤ 12) : ∃ A B : ℝ, 0 ≤ A ∧ 0 ≤ B ∧ ∀ Nm, (2 ≤ Nm ∨ (N = 2 ∧ 1 ≤ Nm)) →
    ∀ W : Fin (NC.npts N Nm) → ℝ, NC.Returns N Nm (.ok W) → Rule A B N (NC.npts N Nm) W := by
  obtain ⟨w, hw, uw⟩ := (C06_exists N).1
  obtain ⟨e, he, ue⟩ := (C06_exists N).2
  refine ⟨NC.spread w e, ∑ j, |e j|, NC.spread_nonneg _ _, Finset.sum_nonneg fun j _ => abs_nonneg _, fun Nm hNm W hW => ?_⟩
  have hNo := NC.noOverlap_of N Nm hNm
  have hNm1 : 1 ≤ Nm := by omega
  have hle : N - 1 ≤ NC.npts N Nm := by
    unfold NC.npts; have := Nat.mul_le_mul_left (N - 1) hNm1; omega
  have hne : ¬ N - 1 = 0 := by omega
  obtain ⟨w', e', hw', he', hW⟩ := hW
  obtain rfl := uw _ hw'
  obtain rfl := ue _ he'
  have hWk : W = fun k => (List.range Nm).foldl (NC.addBlock N (NC.ext0 w')) (NC.edges N Nm (NC.ext0 e')) k.1 := by
    simp only [NC.npts] at hle
    simp only [NC.assemble, NC.assignable, NC.sliceLen, NC.npts, hne, min_eq_left hle, if_false,
      decide_true, Bool.true_or, not_true, Except.ok.injEq] at hW
    exact hW
  subst hWk
  refine ⟨?_, fun h hh f hf ε hl => ?_⟩
  · have := NC.composite_norm hN hNm1 hNo w' e'
    rwa [Finset.sum_range] at this
  · have := NC.composite_error hN hNm1 hNo ((NC.isBlock_iff hN' _).mp hw) ((NC.isEdge_iff hN' _).mp he) hh hf hl
    rwa [Finset.sum_range] at this

/-! ## Two directions -/

/-- Error of the product rule on the rectangle `[0, L] × [0, T]`. -/
theorem tensor_error {na nr N : ℕ} {U : Fin na → ℝ} {V : Fin nr → ℝ} {A B : ℝ} (hA : 0 ≤ A) (hB : 0 ≤ B) (hna : 0 < na)
    (hnr : 0 < nr) (hU : Rule A B N na U) (hV : Rule A B N nr V)
    {L T : ℝ} (hL : 0 < L) (hT : 0 < T) {H : ℝ → ℝ → ℝ} (hH : Continuous fun p : ℝ × ℝ => H p.1 p.2) {εr εa Br Ba : ℝ}
    (h1 : ∀ θ ∈ Icc 0 T, LocallyPoly (fun r => H r θ) L (N * (L / nr)) εr N ∧ |H 0 θ| + |H L θ| ≤ Br)
    (h2 : ∀ r ∈ Icc 0 L, LocallyPoly (H r) T (N * (T / na)) εa N ∧ |H r 0| + |H r T| ≤ Ba) :
    |L / nr * (T / na) * (∑ i, ∑ j, U i * V j * H (((j.1 : ℝ) + 1 / 2) * (L / nr)) (((i.1 : ℝ) + 1 / 2) * (T / na))) -
        ∫ r in (0 : ℝ)..L, ∫ θ in (0 : ℝ)..T, H r θ| ≤
      A * T * (A * L * εr + B * (L / nr) * Br) + L * (A * T * εa + B * (T / na) * Ba) := by
  have hna' : (0 : ℝ) < na := by exact_mod_cast hna
  have hnr' : (0 : ℝ) < nr := by exact_mod_cast hnr
  have cr : ∀ θ, Continuous fun r => H r θ := fun θ => hH.comp (continuous_id.prodMk continuous_const)
  have ca : ∀ r, Continuous (H r) := fun r => hH.comp (continuous_const.prodMk continuous_id)
  have hLn : nr * (L / nr) = L := by field_simp
  have hTn : na * (T / na) = T := by field_simp
  have hθ : ∀ i : Fin na, ((i.1 : ℝ) + 1 / 2) * (T / na) ∈ Icc 0 T := by
    intro i
    have := half_lt hT i
    rw [mul_div_assoc] at this
    exact ⟨by positivity, this.le⟩
  have R : ∀ θ ∈ Icc 0 T, |L / nr * (∑ j, V j * H (((j.1 : ℝ) + 1 / 2) * (L / nr)) θ) - ∫ r in (0 : ℝ)..L, H r θ| ≤
      A * L * εr + B * (L / nr) * Br := by
    intro θ h
    have := hV.error (L / nr) (by positivity) _ (cr θ) εr (by rw [hLn]; exact (h1 θ h).1)
    rw [hLn] at this
    refine this.trans (add_le_add le_rfl (mul_le_mul_of_nonneg_left (h1 θ h).2 (by positivity)))
  have Q : ∀ r ∈ Icc 0 L, |T / na * (∑ i, U i * H r (((i.1 : ℝ) + 1 / 2) * (T / na))) - ∫ θ in (0 : ℝ)..T, H r θ| ≤
      A * T * εa + B * (T / na) * Ba := by
    intro r h
    have := hU.error (T / na) (by positivity) _ (ca r) εa (by rw [hTn]; exact (h2 r h).1)
    rw [hTn] at this
    refine this.trans (add_le_add le_rfl (mul_le_mul_of_nonneg_left (h2 r h).2 (by positivity)))
  set S : ℝ := T / na * ∑ i, U i * ∫ r in (0 : ℝ)..L, H r (((i.1 : ℝ) + 1 / 2) * (T / na)) with hS
  have s1 : |L / nr * (T / na) * (∑ i, ∑ j, U i * V j * H (((j.1 : ℝ) + 1 / 2) * (L / nr)) (((i.1 : ℝ) + 1 / 2) * (T / na))) - S| ≤
      A * T * (A * L * εr + B * (L / nr) * Br) := by
    have e : L / nr * (T / na) * (∑ i, ∑ j, U i * V j * H (((j.1 : ℝ) + 1 / 2) * (L / nr)) (((i.1 : ℝ) + 1 / 2) * (T / na))) - S =
        T / na * ∑ i, U i * (L / nr * (∑ j, V j * H (((j.1 : ℝ) + 1 / 2) * (L / nr)) (((i.1 : ℝ) + 1 / 2) * (T / na))) -
          ∫ r in (0 : ℝ)..L, H r (((i.1 : ℝ) + 1 / 2) * (T / na))) := by
      rw [hS]
      simp only [mul_sub, Finset.sum_sub_distrib, Finset.mul_sum]
      congr 1
      refine Finset.sum_congr rfl fun i _ => Finset.sum_congr rfl fun j _ => ?_
      ring
    rw [e, abs_mul, abs_of_pos (by positivity : 0 < T / na)]
    have e0 : 0 ≤ A * L * εr + B * (L / nr) * Br := (abs_nonneg _).trans (R 0 ⟨le_rfl, hT.le⟩)
    calc _ ≤ T / na * ∑ i, |U i| * (A * L * εr + B * (L / nr) * Br) := by
          refine mul_le_mul_of_nonneg_left ((Finset.abs_sum_le_sum_abs _ _).trans (Finset.sum_le_sum fun i _ => ?_)) (by positivity)
          rw [abs_mul]
          exact mul_le_mul_of_nonneg_left (R _ (hθ i)) (abs_nonneg _)
      _ = T / na * (∑ i, |U i|) * (A * L * εr + B * (L / nr) * Br) := by rw [← Finset.sum_mul]; ring
      _ ≤ T / na * (A * na) * (A * L * εr + B * (L / nr) * Br) :=
          mul_le_mul_of_nonneg_right (mul_le_mul_of_nonneg_left hU.size (by positivity)) e0
      _ = _ := by rw [show T / na * (A * na) = A * T by field_simp]
  have s2 : |S - ∫ r in (0 : ℝ)..L, ∫ θ in (0 : ℝ)..T, H r θ| ≤ L * (A * T * εa + B * (T / na) * Ba) := by
    have hc : Continuous fun r => ∫ θ in (0 : ℝ)..T, H r θ :=
      intervalIntegral.continuous_parametric_intervalIntegral_of_continuous' hH 0 T
    have hc2 : Continuous fun r => T / na * (∑ i, U i * H r (((i.1 : ℝ) + 1 / 2) * (T / na))) := by
      refine continuous_const.mul (continuous_finsetSum _ fun i _ => continuous_const.mul (cr _))
    have e : S - ∫ r in (0 : ℝ)..L, ∫ θ in (0 : ℝ)..T, H r θ =
        ∫ r in (0 : ℝ)..L, (T / na * (∑ i, U i * H r (((i.1 : ℝ) + 1 / 2) * (T / na))) - ∫ θ in (0 : ℝ)..T, H r θ) := by
      rw [intervalIntegral.integral_sub (hc2.intervalIntegrable _ _) (hc.intervalIntegrable _ _),
        intervalIntegral.integral_const_mul, intervalIntegral.integral_finsetSum]
      · simp only [intervalIntegral.integral_const_mul, hS]
      · exact fun i _ => (continuous_const.mul (cr _)).intervalIntegrable _ _
    rw [e]
    have := intervalIntegral.norm_integral_le_of_norm_le_const (a := 0) (b := L) (C := A * T * εa + B * (T / na) * Ba)
      (f := fun r => T / na * (∑ i, U i * H r (((i.1 : ℝ) + 1 / 2) * (T / na))) - ∫ θ in (0 : ℝ)..T, H r θ) fun r h => by
        rw [uIoc_of_le hL.le] at h
        exact Q r ⟨h.1.le, h.2⟩
    rw [sub_zero, abs_of_pos hL, Real.norm_eq_abs] at this
    rw [mul_comm L]
    exact this
  calc _ ≤ _ := abs_sub_le _ S _
    _ ≤ _ := add_le_add s1 s2

/-- The product rules converge for every continuous function. -/
theorem tensor_converges {N : ℕ} (hN : 1 ≤ N) {A B : ℝ} (hA : 0 ≤ A) (hB : 0 ≤ B) {L T : ℝ} (hL : 0 < L) (hT : 0 < T)
    {H : ℝ → ℝ → ℝ} (hH : Continuous fun p : ℝ × ℝ => H p.1 p.2) {δ : ℝ} (hδ : 0 < δ) :
    ∃ m : ℕ, ∀ na nr : ℕ, m < na → m < nr → ∀ (U : Fin na → ℝ) (V : Fin nr → ℝ), Rule A B N na U → Rule A B N nr V →
      |L / nr * (T / na) * (∑ i, ∑ j, U i * V j * H (((j.1 : ℝ) + 1 / 2) * (L / nr)) (((i.1 : ℝ) + 1 / 2) * (T / na))) -
        ∫ r in (0 : ℝ)..L, ∫ θ in (0 : ℝ)..T, H r θ| ≤ δ := by
  have hK : IsCompact (Icc (0 : ℝ) L ×ˢ Icc (0 : ℝ) T) := isCompact_Icc.prod isCompact_Icc
  obtain ⟨Bd, hBd⟩ := hK.exists_bound_of_continuousOn hH.continuousOn
  have hBd0 : 0 ≤ Bd := (norm_nonneg _).trans (hBd (0, 0) ⟨⟨le_rfl, hL.le⟩, ⟨le_rfl, hT.le⟩⟩)
  -- tolerance
  set D : ℝ := A * T * (A * L + B * L * (Bd + Bd)) + L * (A * T + B * T * (Bd + Bd)) + 1 with hD
  have hD0 : 0 < D := by positivity
  set η : ℝ := δ / D with hη
  have hη0 : 0 < η := by positivity
  have hu := hK.uniformContinuousOn_of_continuous hH.continuousOn
  obtain ⟨ρ, hρ, hu⟩ := Metric.uniformContinuousOn_iff.mp hu η hη0
  obtain ⟨m, hm⟩ := exists_nat_gt (max (max (N * L / ρ) (N * T / ρ)) (1 / η))
  have hm0 : 1 / η < m := lt_of_le_of_lt (le_max_right _ _) hm
  refine ⟨m, fun na nr hna hnr U V hU hV => ?_⟩
  have hna' : (m : ℝ) < na := by exact_mod_cast hna
  have hnr' : (m : ℝ) < nr := by exact_mod_cast hnr
  have hpos : (0 : ℝ) < m := (by positivity : 0 < 1 / η).trans hm0
  have small : ∀ b n : ℝ, N * b / ρ < m → (m : ℝ) < n → N * (b / n) < ρ := by
    intro b n hb hn
    rw [div_lt_iff₀ hρ] at hb
    rw [← mul_div_assoc, div_lt_iff₀ (hpos.trans hn)]
    nlinarith
  have s1 := small L nr (lt_of_le_of_lt ((le_max_left _ _).trans (le_max_left _ _)) hm) hnr'
  have s2 := small T na (lt_of_le_of_lt ((le_max_right _ _).trans (le_max_left _ _)) hm) hna'
  have s3 : ∀ n : ℝ, (m : ℝ) < n → ∀ b : ℝ, 0 < b → b / n ≤ b * η := by
    intro n hn b hb
    have : 1 / η < n := hm0.trans hn
    rw [div_lt_iff₀ hη0] at this
    rw [div_le_iff₀ (hpos.trans hn)]
    nlinarith
  have l1 : ∀ θ ∈ Icc 0 T, LocallyPoly (fun r => H r θ) L (N * (L / nr)) η N := by
    intro θ hθ
    refine locallyPoly_of_close (by omega) hη0.le fun s hs t ht hst => ?_
    have := hu (s, θ) ⟨hs, hθ⟩ (t, θ) ⟨ht, hθ⟩ (by
      rw [Prod.dist_eq]
      simp only [dist_self, Real.dist_eq]
      rw [max_eq_left (abs_nonneg _)]
      linarith)
    rw [Real.dist_eq] at this
    exact this.le
  have l2 : ∀ r ∈ Icc 0 L, LocallyPoly (H r) T (N * (T / na)) η N := by
    intro r hr
    refine locallyPoly_of_close (by omega) hη0.le fun s hs t ht hst => ?_
    have := hu (r, s) ⟨hr, hs⟩ (r, t) ⟨hr, ht⟩ (by
      rw [Prod.dist_eq]
      simp only [dist_self, Real.dist_eq]
      rw [max_eq_right (abs_nonneg _)]
      linarith)
    rw [Real.dist_eq] at this
    exact this.le
  have i0 : ∀ {b : ℝ}, 0 < b → (0 : ℝ) ∈ Icc 0 b ∧ b ∈ Icc 0 b := fun hb => ⟨⟨le_rfl, hb.le⟩, ⟨hb.le, le_rfl⟩⟩
  refine (tensor_error hA hB (by omega) (by omega) hU hV hL hT hH (εr := η) (εa := η) (Br := Bd + Bd) (Ba := Bd + Bd)
    (fun θ hθ => ⟨l1 θ hθ, add_le_add (hBd (0, θ) ⟨(i0 hL).1, hθ⟩) (hBd (L, θ) ⟨(i0 hL).2, hθ⟩)⟩)
    (fun r hr => ⟨l2 r hr, add_le_add (hBd (r, 0) ⟨hr, (i0 hT).1⟩) (hBd (r, T) ⟨hr, (i0 hT).2⟩)⟩)).trans ?_
  have b1 := s3 nr hnr' L hL
  have b2 := s3 na hna' T hT
  calc _ ≤ A * T * (A * L * η + B * (L * η) * (Bd + Bd)) + L * (A * T * η + B * (T * η) * (Bd + Bd)) := by gcongr
    _ = (D - 1) * η := by rw [hD]; ring
    _ ≤ D * η := by nlinarith
    _ = δ := by rw [hη]; field_simp

/-! ## `integrate` -/

/-- Volume element of the prolate spheroidal coordinates (distance `2a` between the foci). -/
noncomputable def Spec.spheroidal (a r θ : ℝ) : ℝ :=
  a ^ 3 * Real.sinh r * Real.sin θ * (Real.sinh r ^ 2 + Real.sin θ ^ 2)

/-- The integral of `F` over the box, in spheroidal coordinates. -/
noncomputable def Spec.boxIntegral (a L : ℝ) (F : ℝ → ℝ → ℝ) : ℝ :=
  2 * Real.pi * ∫ r in (0 : ℝ)..L, ∫ θ in (0 : ℝ)..Real.pi, F r θ * spheroidal a r θ

/-- Values of `F` at the grid points. -/
noncomputable def Spec.sampled (N Ma Mr : ℕ) (L : ℝ) (F : ℝ → ℝ → ℝ) : Fin (NC.npts N Ma * NC.npts N Mr) → ℝ := fun k =>
  F (Xr _ _ L k) (Xa _ _ k)

theorem integrate_sampled {N M : ℕ} {a L : ℝ} {wa wr : Fin (NC.npts N M) → ℝ} (ha : NC.Returns N M (.ok wa))
    (hr : NC.Returns N M (.ok wr)) (F : ℝ → ℝ → ℝ) :
    (mkGrid N M M a L wa wr).integrate (.d1 (sampled N M M L F)) =
      .num (2 * Real.pi * (L / NC.npts N M * (Real.pi / NC.npts N M) * ∑ i, ∑ j, wa i * wa j *
        (F (((j.1 : ℝ) + 1 / 2) * (L / NC.npts N M)) (((i.1 : ℝ) + 1 / 2) * (Real.pi / NC.npts N M)) *
          spheroidal a (((j.1 : ℝ) + 1 / 2) * (L / NC.npts N M)) (((i.1 : ℝ) + 1 / 2) * (Real.pi / NC.npts N M))))) := by
  have e : wr = wa := by injection hr.unique ha
  subst e
  rw [C08_tensor_partial N M a L wr wr ha hr, IntRes.num.injEq, hr_eq, ha_eq, tensorSum]
  have : ∀ (S : ℝ) (n : ℝ), 2 * Real.pi * (L / n) * (Real.pi / n) * S = 2 * Real.pi * (L / n * (Real.pi / n) * S) := fun S n => by ring
  rw [this]
  congr 2
  refine Finset.sum_congr rfl fun i _ => Finset.sum_congr rfl fun j _ => ?_
  simp only [w_eq, sampled, Xr, Xa, ia_at2, ir_at2, xr_eq, xa_eq, mul_div_assoc, spheroidal]
  ring

theorem continuous_weighted (a : ℝ) {F : ℝ → ℝ → ℝ} (hF : Continuous fun p : ℝ × ℝ => F p.1 p.2) :
    Continuous fun p : ℝ × ℝ => F p.1 p.2 * spheroidal a p.1 p.2 := by
  unfold spheroidal
  refine hF.mul ?_
  fun_prop

theorem npts_pos (N M : ℕ) : 0 < NC.npts N M := Nat.succ_pos _

theorem sampled_error {N : ℕ} (hN : 2 ≤ N) (hN' : N ≤ 12) : ∃ A B : ℝ, 0 ≤ A ∧ 0 ≤ B ∧ ∀ M, 2 ≤ M → ∀ wa wr : Fin (NC.npts N M) → ℝ,
    NC.Returns N M (.ok wa) → NC.Returns N M (.ok wr) → ∀ a L : ℝ, 0 < L → ∀ F : ℝ → ℝ → ℝ,
    Continuous (fun p : ℝ × ℝ => F p.1 p.2) → ∀ εr εa Br : ℝ,
    (∀ θ ∈ Icc 0 Real.pi, LocallyPoly (fun r => F r θ * spheroidal a r θ) L (N * (L / NC.npts N M)) εr N ∧
      |F L θ * spheroidal a L θ| ≤ Br) →
    (∀ r ∈ Icc 0 L, LocallyPoly (fun θ => F r θ * spheroidal a r θ) Real.pi (N * (Real.pi / NC.npts N M)) εa N) →
    ∃ x, (mkGrid N M M a L wa wr).integrate (.d1 (sampled N M M L F)) = .num x ∧
      |x - boxIntegral a L F| ≤ 2 * Real.pi * (A * Real.pi * (A * L * εr + B * (L / NC.npts N M) * Br) + L * (A * Real.pi * εa)) := by
  obtain ⟨A, B, hA, hB, hrule⟩ := nc_rule hN hN'
  refine ⟨A, B, hA, hB, fun M hM wa wr ha hr a L hL F hF εr εa Br h1 h2 => ⟨_, integrate_sampled ha hr F, ?_⟩⟩
  have hW := hrule M (.inl hM) wa ha
  have hc := continuous_weighted a hF
  have h0 : ∀ θ, F 0 θ * spheroidal a 0 θ = 0 := fun θ => by simp [spheroidal]
  have h3 : ∀ r, F r 0 * spheroidal a r 0 = 0 := fun r => by simp [spheroidal]
  have h4 : ∀ r, F r Real.pi * spheroidal a r Real.pi = 0 := fun r => by simp [spheroidal]
  have := tensor_error hA hB (npts_pos N M) (npts_pos N M) hW hW hL Real.pi_pos (H := fun r θ => F r θ * spheroidal a r θ) hc
    (εr := εr) (εa := εa) (Br := Br) (Ba := 0)
    (fun θ hθ => ⟨(h1 θ hθ).1, by simpa [h0] using (h1 θ hθ).2⟩) (fun r hr => ⟨h2 r hr, by simp [h3, h4]⟩)
  rw [boxIntegral, ← mul_sub, abs_mul, abs_of_pos (by positivity : 0 < 2 * Real.pi)]
  refine mul_le_mul_of_nonneg_left (this.trans (le_of_eq ?_)) (by positivity)
  ring

/-- C102 (convergence): with the same number of blocks in both directions, `integrate` of the values of any
continuous function converges to its integral over the box when the number of blocks grows. -/
theorem C102_converges_partial {N : ℕ} (hN : 2 ≤ N) (hN' : N ≤ 12) {a L : ℝ} (hL : 0 < L) {F : ℝ → ℝ → ℝ}
    (hF : Continuous fun p : ℝ × ℝ => F p.1 p.2) {δ : ℝ} (hδ : 0 < δ) :
    ∃ M₀, ∀ M ≥ M₀, ∀ wa wr : Fin (NC.npts N M) → ℝ, NC.Returns N M (.ok wa) → NC.Returns N M (.ok wr) →
      ∃ x, (mkGrid N M M a L wa wr).integrate (.d1 (sampled N M M L F)) = .num x ∧ |x - boxIntegral a L F| ≤ δ := by
  obtain ⟨A, B, hA, hB, hrule⟩ := nc_rule hN hN'
  obtain ⟨m, hm⟩ := tensor_converges (N := N) (H := fun r θ => F r θ * spheroidal a r θ) (by omega) hA hB hL Real.pi_pos (continuous_weighted a hF)
    (by positivity : 0 < δ / (2 * Real.pi))
  refine ⟨max m 2, fun M hM wa wr ha hr => ⟨_, integrate_sampled ha hr F, ?_⟩⟩
  have hW := hrule M (.inl ((le_max_right _ _).trans hM)) wa ha
  have hn : m < NC.npts N M := by
    have h1 : m ≤ M := (le_max_left _ _).trans hM
    unfold NC.npts
    have := Nat.mul_le_mul_right M (show 1 ≤ N - 1 by omega)
    omega
  rw [boxIntegral, ← mul_sub, abs_mul, abs_of_pos (by positivity : 0 < 2 * Real.pi)]
  refine (mul_le_mul_of_nonneg_left (hm _ _ hn hn wa wa hW hW) (by positivity)).trans (le_of_eq ?_)
  field_simp

/-- C102 (order): if the function vanishes at the end of the box and, multiplied by the volume element, has `N`
bounded derivatives in each coordinate, the error of `integrate` is of order `N` (points of a block) in both steps,
with a constant that depends on `N` only. -/
theorem C102_order_partial {N : ℕ} (hN : 2 ≤ N) (hN' : N ≤ 12) : ∃ c : ℝ, 0 ≤ c ∧ ∀ M, 2 ≤ M → ∀ wa wr : Fin (NC.npts N M) → ℝ,
    NC.Returns N M (.ok wa) → NC.Returns N M (.ok wr) → ∀ a L : ℝ, 0 < L → ∀ F : ℝ → ℝ → ℝ,
    Continuous (fun p : ℝ × ℝ => F p.1 p.2) → (∀ θ, F L θ = 0) → ∀ Kr Ka : ℝ,
    (∀ θ ∈ Icc 0 Real.pi, ContDiff ℝ N (fun r => F r θ * spheroidal a r θ) ∧
      ∀ r ∈ Icc 0 L, |iteratedDeriv N (fun r => F r θ * spheroidal a r θ) r| ≤ Kr) →
    (∀ r ∈ Icc 0 L, ContDiff ℝ N (fun θ => F r θ * spheroidal a r θ) ∧
      ∀ θ ∈ Icc 0 Real.pi, |iteratedDeriv N (fun θ => F r θ * spheroidal a r θ) θ| ≤ Ka) →
    ∃ x, (mkGrid N M M a L wa wr).integrate (.d1 (sampled N M M L F)) = .num x ∧
      |x - boxIntegral a L F| ≤ c * L * (Kr * (mkGrid N M M a L wa wr).hr ^ N + Ka * (mkGrid N M M a L wa wr).ha ^ N) := by
  obtain ⟨A, B, hA, hB, herr⟩ := sampled_error hN hN'
  have hπ := Real.pi_pos
  refine ⟨2 * Real.pi * (A * Real.pi * (A + 1)) * (N : ℝ) ^ N, by positivity, fun M hM wa wr ha hr a L hL F hF hF0 Kr Ka h1 h2 => ?_⟩
  have hn0 : (0 : ℝ) < NC.npts N M := by exact_mod_cast npts_pos N M
  have hKr : 0 ≤ Kr := (abs_nonneg _).trans ((h1 0 ⟨le_rfl, hπ.le⟩).2 0 ⟨le_rfl, hL.le⟩)
  have hKa : 0 ≤ Ka := (abs_nonneg _).trans ((h2 0 ⟨le_rfl, hL.le⟩).2 0 ⟨le_rfl, hπ.le⟩)
  obtain ⟨n, rfl⟩ : ∃ n, N = n + 1 := ⟨N - 1, by omega⟩
  obtain ⟨x, hx, hb⟩ := herr M hM wa wr ha hr a L hL F hF _ _ 0
    (fun θ hθ => ⟨locallyPoly_of_smooth hKr (by positivity) (h1 θ hθ).1 (h1 θ hθ).2, by simp [hF0]⟩)
    (fun r hr => locallyPoly_of_smooth hKa (by positivity) (h2 r hr).1 (h2 r hr).2)
  refine ⟨x, hx, hb.trans ?_⟩
  simp only [hr_eq, ha_eq, mul_zero, add_zero, mul_pow]
  have p1 : 0 ≤ Kr * (L / (NC.npts (n + 1) M : ℝ)) ^ (n + 1) := by positivity
  have p2 : 0 ≤ Ka * (Real.pi / (NC.npts (n + 1) M : ℝ)) ^ (n + 1) := by positivity
  set X := Kr * (L / (NC.npts (n + 1) M : ℝ)) ^ (n + 1)
  set Y := Ka * (Real.pi / (NC.npts (n + 1) M : ℝ)) ^ (n + 1)
  have e : 2 * Real.pi * (A * Real.pi * (A * L * (Kr * (((n + 1 : ℕ) : ℝ) ^ (n + 1) * (L / (NC.npts (n + 1) M : ℝ)) ^ (n + 1)))) +
      L * (A * Real.pi * (Ka * (((n + 1 : ℕ) : ℝ) ^ (n + 1) * (Real.pi / (NC.npts (n + 1) M : ℝ)) ^ (n + 1))))) =
      2 * Real.pi * (A * Real.pi) * ((n + 1 : ℕ) : ℝ) ^ (n + 1) * L * (A * X + Y) := by simp only [X, Y]; ring
  rw [e]
  have e2 : 2 * Real.pi * (A * Real.pi * (A + 1)) * ((n + 1 : ℕ) : ℝ) ^ (n + 1) * L * (X + Y) =
      2 * Real.pi * (A * Real.pi) * ((n + 1 : ℕ) : ℝ) ^ (n + 1) * L * ((A + 1) * (X + Y)) := by ring
  rw [e2]
  refine mul_le_mul_of_nonneg_left ?_ (by positivity)
  nlinarith [mul_nonneg hA p2]

/-! ## Unequal numbers of blocks -/

theorem midpoint_exact : ExactOn (fun _ : Fin 1 => (1 / 2 : ℝ)) (fun _ => 1) 0 1 1 :=
  exactOn_of_moments fun n hn => by
    obtain rfl : n = 0 := by omega
    simp

/-- The midpoint rule. -/
theorem midpoint_rule (n : ℕ) : Rule 2 0 1 n fun _ => 1 := by
  refine ⟨by simp; linarith [(Nat.cast_nonneg n : (0 : ℝ) ≤ n)], fun h hh f hf ε hl => ?_⟩
  have hint : ∀ u v : ℝ, IntervalIntegrable f MeasureTheory.volume u v := fun u v => hf.intervalIntegrable u v
  have hs := intervalIntegral.sum_integral_adjacent_intervals (n := n) (f := f) (a := fun k : ℕ => (k : ℝ) * h)
    (μ := MeasureTheory.volume) (fun k _ => hint _ _)
  have h0 : ((0 : ℕ) : ℝ) * h = 0 := by simp
  rw [h0] at hs
  have B : ∀ k ∈ Finset.range n, |h * f (((k : ℝ) + 1 / 2) * h) - ∫ t in ((k : ℝ) * h)..(((k + 1 : ℕ) : ℝ) * h), f t| ≤ h * 2 * ε := by
    intro k hk
    have hk : (k : ℝ) + 1 ≤ n := by exact_mod_cast Finset.mem_range.mp hk
    have hup : (k : ℝ) * h + h * 1 = ((k + 1 : ℕ) : ℝ) * h := by push_cast; ring
    obtain ⟨q, hq, hq2⟩ := hl (k * h) (k * h + h * 1) (by positivity) (by nlinarith) (by simp)
    have := rule_error midpoint_exact zero_le_one hh le_rfl (fun _ => ⟨by norm_num, by norm_num⟩) hf hq hq2
    rw [hup] at this
    simp only [Finset.univ_unique, Finset.sum_const, Finset.card_singleton, one_smul, abs_one, one_mul] at this
    rw [show ((k : ℝ) + 1 / 2) * h = k * h + h * (1 / 2) by ring]
    refine this.trans (le_of_eq ?_)
    ring
  have hr : ∑ k : Fin n, (1 : ℝ) * f (((k.1 : ℝ) + 1 / 2) * h) = ∑ k ∈ Finset.range n, f (((k : ℝ) + 1 / 2) * h) := by
    rw [Finset.sum_range]; simp
  rw [hr, ← hs, Finset.mul_sum, ← Finset.sum_sub_distrib]
  refine (Finset.abs_sum_le_sum_abs _ _).trans ((Finset.sum_le_sum B).trans ?_)
  simp only [Finset.sum_const, Finset.card_range, nsmul_eq_mul]
  refine le_of_eq ?_
  ring

/-- The weights of Simpson's rule with half steps at the ends. -/
theorem nc_three {M : ℕ} (hM : 2 ≤ M) {W : Fin (NC.npts 3 M) → ℝ} (hW : NC.Returns 3 M (.ok W)) (k : Fin (NC.npts 3 M)) :
    W k ≤ 4 / 3 ∧ (k.1 % 2 = 0 → 0 ≤ W k ∧ W k ≤ 2 / 3) := by
  obtain ⟨w, e, hw, he, hW⟩ := hW.exact (by norm_num)
  have e1 := NC.edge_moments he 1 (by norm_num)
  have e2 := NC.edge_moments he 2 (by norm_num)
  have w0 := NC.block_moments hw 0 (by norm_num)
  have w1 := NC.block_moments hw 1 (by norm_num)
  have w2 := NC.block_moments hw 2 (by norm_num)
  simp only [Fin.sum_univ_three, NC.edgePts, NC.blockPts] at e1 e2 w0 w1 w2
  norm_num at e1 e2 w0 w1 w2
  have a2 : e 2 = -1 / 72 := by linarith
  have a1 : e 1 = 7 / 24 := by linarith
  have b2 : w 2 = 1 / 3 := by linarith
  have b1 : w 1 = 4 / 3 := by linarith
  have b0 : w 0 = 1 / 3 := by linarith
  have x1 : NC.ext0 e 1 = 7 / 24 := by simpa [NC.ext0] using a1
  have x2 : NC.ext0 e 2 = -1 / 72 := by simpa [NC.ext0] using a2
  have y0 : NC.ext0 w 0 = 1 / 3 := by simpa [NC.ext0] using b0
  have y1 : NC.ext0 w 1 = 4 / 3 := by simpa [NC.ext0] using b1
  have y2 : NC.ext0 w 2 = 1 / 3 := by simpa [NC.ext0] using b2
  have hle : 3 - 1 ≤ NC.npts 3 M := by unfold NC.npts; omega
  have hWk : W k = (List.range M).foldl (NC.addBlock 3 (NC.ext0 w)) (NC.edges 3 M (NC.ext0 e)) k.1 := by
    simp only [NC.npts] at hle
    simp only [NC.assemble, NC.assignable, NC.sliceLen, NC.npts, min_eq_left hle, decide_true, Bool.true_or, not_true,
      if_false, Except.ok.injEq, show ¬ (3 - 1 = 0) by norm_num] at hW
    rw [hW]
  obtain ⟨k, hk⟩ := k
  simp only [NC.npts] at hk
  have hk' : k < 2 * M + 1 := by omega
  rw [NC.foldl_addBlock] at hWk
  rw [hWk]
  have hE : NC.edges 3 M (NC.ext0 e) k = if k = 2 * M ∨ k = 0 then 7 / 24 else if k = 2 * M - 1 ∨ k = 1 then -1 / 72 else 0 := by
    simp only [NC.edges, NC.npts]
    by_cases c1 : k = 2 * M
    · subst c1
      rw [if_pos (by omega), if_pos (.inl rfl), show 3 - 1 - 1 - (2 * M - ((3 - 1) * M + 1 - (3 - 1))) + 1 = 1 by omega, x1]
    · by_cases c2 : k = 2 * M - 1
      · subst c2
        rw [if_pos (by omega), if_neg (by omega), if_pos (.inl rfl),
          show 3 - 1 - 1 - (2 * M - 1 - ((3 - 1) * M + 1 - (3 - 1))) + 1 = 2 by omega, x2]
      · rw [if_neg (by omega)]
        by_cases c3 : k = 0
        · subst c3; rw [if_pos (by omega), if_pos (.inr rfl), x1]
        · by_cases c4 : k = 1
          · subst c4; rw [if_pos (by omega), if_neg (by omega), if_pos (.inr rfl), x2]
          · rw [if_neg (by omega), if_neg (by omega), if_neg (by omega)]
  rcases Nat.even_or_odd' k with ⟨q, rfl | rfl⟩
  · have hS : ∑ i ∈ Finset.range M, (if (3 - 1) * i ≤ 2 * q ∧ 2 * q < (3 - 1) * i + 3 then NC.ext0 w (2 * q - (3 - 1) * i) else 0) =
        (if q < M then 1 / 3 else 0) + (if 1 ≤ q then 1 / 3 else 0) := by
      have : ∀ i ∈ Finset.range M, (if (3 - 1) * i ≤ 2 * q ∧ 2 * q < (3 - 1) * i + 3 then NC.ext0 w (2 * q - (3 - 1) * i) else 0) =
          (if q = i then (1 / 3 : ℝ) else 0) + (if q = i + 1 then 1 / 3 else 0) := by
        intro i _
        by_cases c1 : q = i
        · subst c1
          rw [if_pos (by omega), if_pos rfl, if_neg (by omega), show 2 * q - (3 - 1) * q = 0 by omega, y0, add_zero]
        · by_cases c2 : q = i + 1
          · subst c2
            rw [if_pos (by omega), if_neg c1, if_pos rfl, show 2 * (i + 1) - (3 - 1) * i = 2 by omega, y2, zero_add]
          · rw [if_neg (by omega), if_neg c1, if_neg c2, add_zero]
      rw [Finset.sum_congr rfl this, Finset.sum_add_distrib, Finset.sum_ite_eq]
      congr 1
      · simp
      · by_cases c : 1 ≤ q
        · rw [if_pos c]
          have : ∀ i, (if q = i + 1 then (1 / 3 : ℝ) else 0) = if q - 1 = i then 1 / 3 else 0 := fun i => by
            congr 1
            exact propext ⟨fun h => by omega, fun h => by omega⟩
          simp_rw [this]
          rw [Finset.sum_ite_eq, if_pos (Finset.mem_range.mpr (by omega))]
        · rw [if_neg c]
          exact Finset.sum_eq_zero fun i _ => if_neg (by omega)
    rw [hS, hE]
    by_cases c1 : q = 0
    · subst c1
      rw [if_pos (.inr (by omega)), if_pos (by omega), if_neg (by omega)]
      norm_num
    · by_cases c2 : q = M
      · subst c2
        rw [if_pos (.inl rfl), if_neg (by omega), if_pos (by omega)]
        norm_num
      · rw [if_neg (by omega), if_neg (by omega), if_pos (by omega), if_pos (by omega)]
        norm_num
  · refine ⟨?_, fun h => by simp only at h; omega⟩
    have hS : ∑ i ∈ Finset.range M, (if (3 - 1) * i ≤ 2 * q + 1 ∧ 2 * q + 1 < (3 - 1) * i + 3 then
        NC.ext0 w (2 * q + 1 - (3 - 1) * i) else 0) = 4 / 3 := by
      have : ∀ i ∈ Finset.range M, (if (3 - 1) * i ≤ 2 * q + 1 ∧ 2 * q + 1 < (3 - 1) * i + 3 then
          NC.ext0 w (2 * q + 1 - (3 - 1) * i) else 0) = if q = i then (4 / 3 : ℝ) else 0 := by
        intro i _
        by_cases c1 : q = i
        · subst c1
          rw [if_pos (by omega), if_pos rfl, show 2 * q + 1 - (3 - 1) * q = 1 by omega, y1]
        · rw [if_neg (by omega), if_neg c1]
      rw [Finset.sum_congr rfl this, Finset.sum_ite_eq, if_pos (Finset.mem_range.mpr (by omega))]
    rw [hS, hE, if_neg (by omega)]
    split <;> norm_num

/-- A function that is positive only at points the wrong order of the weights gives too little weight. -/
noncomputable def wedge (L r θ : ℝ) : ℝ := max 0 (θ / Real.pi - r / L) * max 0 (1 + r / L - 2 * (θ / Real.pi))

theorem wedge_continuous (L : ℝ) : Continuous fun p : ℝ × ℝ => wedge L p.1 p.2 := by
  unfold wedge
  fun_prop

theorem wedge_nonneg (L r θ : ℝ) : 0 ≤ wedge L r θ := mul_nonneg (le_max_left _ _) (le_max_left _ _)

theorem spheroidal_nonneg {a r θ : ℝ} (ha : 0 < a) (hr : 0 ≤ r) (hθ : θ ∈ Icc 0 Real.pi) : 0 ≤ spheroidal a r θ := by
  have := Real.sinh_nonneg_iff.mpr hr
  have := Real.sin_nonneg_of_nonneg_of_le_pi hθ.1 hθ.2
  unfold spheroidal
  positivity

theorem wedge_integral_pos {a L : ℝ} (ha : 0 < a) (hL : 0 < L) : 0 < boxIntegral a L (wedge L) := by
  have hπ := Real.pi_pos
  have hc := continuous_weighted a (wedge_continuous L)
  have cr : ∀ r, Continuous fun θ => wedge L r θ * spheroidal a r θ := fun r => hc.comp (continuous_const.prodMk continuous_id)
  have hn : ∀ r ∈ Icc 0 L, ∀ θ ∈ Icc 0 Real.pi, 0 ≤ wedge L r θ * spheroidal a r θ := fun r hr θ hθ =>
    mul_nonneg (wedge_nonneg _ _ _) (spheroidal_nonneg ha hr.1 hθ)
  have hI : Continuous fun r => ∫ θ in (0 : ℝ)..Real.pi, wedge L r θ * spheroidal a r θ :=
    intervalIntegral.continuous_parametric_intervalIntegral_of_continuous' hc 0 Real.pi
  refine mul_pos (by positivity) (intervalIntegral.integral_pos hL hI.continuousOn (fun r hr => ?_) ⟨L / 4, ⟨by linarith, by linarith⟩, ?_⟩)
  · exact intervalIntegral.integral_nonneg hπ.le fun θ hθ => hn r ⟨hr.1.le, hr.2⟩ θ hθ
  · refine intervalIntegral.integral_pos hπ (cr _).continuousOn (fun θ hθ => hn _ ⟨by linarith, by linarith⟩ θ ⟨hθ.1.le, hθ.2⟩)
      ⟨Real.pi / 2, ⟨by linarith, by linarith⟩, ?_⟩
    have h1 : wedge L (L / 4) (Real.pi / 2) = 1 / 16 := by
      have e1 : Real.pi / 2 / Real.pi = 1 / 2 := by field_simp
      have e2 : L / 4 / L = 1 / 4 := by field_simp
      rw [wedge, e1, e2]
      norm_num
    have h2 : 0 < Real.sinh (L / 4) := Real.sinh_pos_iff.mpr (by linarith)
    rw [h1, spheroidal, Real.sin_pi_div_two]
    positivity

/-- C102 is false for unequal numbers of blocks: with three points per block and twice as many angular as radial
blocks, `integrate` of a continuous function stays below its integral by a fixed amount however fine the grid. -/
theorem C102_refuted {a L : ℝ} (ha : 0 < a) (hL : 0 < L) : ∃ F : ℝ → ℝ → ℝ, Continuous (fun p : ℝ × ℝ => F p.1 p.2) ∧
    ∃ δ > 0, ∃ M₀, ∀ M ≥ M₀, ∀ (wa : Fin (NC.npts 3 (2 * M)) → ℝ) (wr : Fin (NC.npts 3 M) → ℝ),
      NC.Returns 3 (2 * M) (.ok wa) → NC.Returns 3 M (.ok wr) →
      ∃ x, (mkGrid 3 (2 * M) M a L wa wr).integrate (.d1 (sampled 3 (2 * M) M L F)) = .num x ∧ x ≤ boxIntegral a L F - δ := by
  have hπ := Real.pi_pos
  have hI := wedge_integral_pos ha hL
  refine ⟨wedge L, wedge_continuous L, boxIntegral a L (wedge L) / 18, by positivity, ?_⟩
  obtain ⟨m, hm⟩ := tensor_converges (N := 1) (H := fun r θ => wedge L r θ * spheroidal a r θ) le_rfl (A := 2) (B := 0) (by norm_num) le_rfl hL hπ
    (continuous_weighted a (wedge_continuous L)) (δ := boxIntegral a L (wedge L) / (32 * Real.pi)) (by positivity)
  refine ⟨max m 2, fun M hM wa wr hwa hwr => ?_⟩
  have hM2 : 2 ≤ M := (le_max_right _ _).trans hM
  have hMm : m ≤ M := (le_max_left _ _).trans hM
  refine ⟨_, integrate_mkGrid 3 (2 * M) M a L wa wr _, ?_⟩
  have hna : NC.npts 3 (2 * M) = 4 * M + 1 := by unfold NC.npts; omega
  have hnr : NC.npts 3 M = 2 * M + 1 := by unfold NC.npts; omega
  have key : ∑ k : Fin (NC.npts 3 (2 * M) * NC.npts 3 M), wiFlat wa wr k * w _ _ a L k * sampled 3 (2 * M) M L (wedge L) k ≤
      8 / 9 * ∑ i, ∑ j, (1 : ℝ) * 1 * (wedge L (((j : Fin (NC.npts 3 M)).1 + 1 / 2) * (L / NC.npts 3 M))
          ((((i : Fin (NC.npts 3 (2 * M))).1 : ℝ) + 1 / 2) * (Real.pi / NC.npts 3 (2 * M))) *
        spheroidal a (((j.1 : ℝ) + 1 / 2) * (L / NC.npts 3 M)) (((i.1 : ℝ) + 1 / 2) * (Real.pi / NC.npts 3 (2 * M)))) := by
    rw [sum_grid, Finset.mul_sum]
    refine Finset.sum_le_sum fun i _ => ?_
    rw [Finset.mul_sum]
    refine Finset.sum_le_sum fun j _ => ?_
    have hθ : xa (NC.npts 3 (2 * M)) i ∈ Icc 0 Real.pi := ⟨(xa_pos i).le, (xa_lt_pi i).le⟩
    have hr : 0 ≤ xr (NC.npts 3 M) L j := (xr_pos hL j).le
    have e1 : w _ _ a L (at2 i j) = spheroidal a (xr (NC.npts 3 M) L j) (xa (NC.npts 3 (2 * M)) i) := by
      simp only [w_eq, Xr, Xa, ia_at2, ir_at2, spheroidal]
      ring
    have e2 : sampled 3 (2 * M) M L (wedge L) (at2 i j) = wedge L (xr (NC.npts 3 M) L j) (xa (NC.npts 3 (2 * M)) i) := by
      simp only [sampled, Xr, Xa, ia_at2, ir_at2]
    rw [e1, e2, ← mul_div_assoc _ L, ← mul_div_assoc _ Real.pi, ← xr_eq, ← xa_eq, mul_assoc,
      mul_comm (spheroidal _ _ _)]
    simp only [one_mul]
    have hnn : 0 ≤ wedge L (xr (NC.npts 3 M) L j) (xa (NC.npts 3 (2 * M)) i) * spheroidal a (xr (NC.npts 3 M) L j) (xa (NC.npts 3 (2 * M)) i) :=
      mul_nonneg (wedge_nonneg _ _ _) (spheroidal_nonneg ha hr hθ)
    by_cases hreg : j.1 ≤ i.1 ∧ i.1 < j.1 + NC.npts 3 M
    · refine mul_le_mul_of_nonneg_right ?_ hnn
      have hk : (at2 i j).1 = NC.npts 3 M * (2 * j.1) + (i.1 - j.1) := by
        simp only [at2, pos, Nat.mul_zero, Nat.add_zero]
        have : NC.npts 3 (2 * M) * j.1 + j.1 = NC.npts 3 M * (2 * j.1) := by
          have hh : NC.npts 3 (2 * M) + 1 = 2 * NC.npts 3 M := by omega
          rw [← Nat.succ_mul, Nat.succ_eq_add_one, hh]
          ring
        omega
      have hd : (at2 i j).1 / NC.npts 3 M = 2 * j.1 := by
        rw [hk, Nat.mul_add_div (npts_pos 3 M), Nat.div_eq_of_lt (by omega), Nat.add_zero]
      have hW := (nc_three (by omega) hwa ⟨(at2 i j).1 / NC.npts 3 M,
        Nat.div_lt_of_lt_mul (lt_of_lt_of_eq (at2 i j).2 (Nat.mul_comm _ _))⟩).2 (by simp only [hd]; omega)
      have hV := (nc_three hM2 hwr ⟨(at2 i j).1 % NC.npts 3 M, Nat.mod_lt _ (npts_pos 3 M)⟩).1
      unfold wiFlat
      calc _ ≤ _ * (4 / 3 : ℝ) := mul_le_mul_of_nonneg_left hV hW.1
        _ ≤ 2 / 3 * (4 / 3) := mul_le_mul_of_nonneg_right hW.2 (by norm_num)
        _ = 8 / 9 := by norm_num
    · have hz : wedge L (xr (NC.npts 3 M) L j) (xa (NC.npts 3 (2 * M)) i) = 0 := by
        have hp : (0 : ℝ) < NC.npts 3 (2 * M) := by exact_mod_cast npts_pos 3 (2 * M)
        have hq : (0 : ℝ) < NC.npts 3 M := by exact_mod_cast npts_pos 3 M
        have x1 : xa (NC.npts 3 (2 * M)) i / Real.pi = ((i.1 : ℝ) + 1 / 2) / NC.npts 3 (2 * M) := by
          rw [xa_eq]; field_simp
        have x2 : xr (NC.npts 3 M) L j / L = ((j.1 : ℝ) + 1 / 2) / NC.npts 3 M := by
          rw [xr_eq]; field_simp
        have n1 : (NC.npts 3 (2 * M) : ℝ) = 2 * NC.npts 3 M - 1 := by
          rw [hna, hnr]; push_cast; ring
        have n2 : (1 : ℝ) ≤ NC.npts 3 M := by exact_mod_cast npts_pos 3 M
        rw [wedge, x1, x2]
        rcases not_and_or.mp hreg with h | h
        · have h : (i.1 : ℝ) + 1 ≤ j.1 := by exact_mod_cast not_le.mp h
          rw [max_eq_left, zero_mul]
          rw [sub_nonpos, div_le_div_iff₀ hp hq, n1]
          have hj : (0 : ℝ) ≤ j.1 := Nat.cast_nonneg _
          nlinarith
        · have h : (j.1 : ℝ) + NC.npts 3 M ≤ i.1 := by exact_mod_cast not_lt.mp h
          rw [max_eq_left (b := 1 + _ - _), mul_zero]
          have hj : (0 : ℝ) ≤ j.1 := Nat.cast_nonneg _
          have : 1 + ((j.1 : ℝ) + 1 / 2) / NC.npts 3 M ≤ 2 * (((i.1 : ℝ) + 1 / 2) / NC.npts 3 (2 * M)) := by
            rw [← mul_div_assoc, one_add_div hq.ne', div_le_div_iff₀ hq hp, n1]
            nlinarith
          linarith
      rw [hz]
      simp
  have hc := hm (NC.npts 3 (2 * M)) (NC.npts 3 M) (by omega) (by omega) _ _ (midpoint_rule _) (midpoint_rule _)
  have hc := (abs_le.mp hc).2
  set S := ∑ i, ∑ j, (1 : ℝ) * 1 * (wedge L (((j : Fin (NC.npts 3 M)).1 + 1 / 2) * (L / NC.npts 3 M))
          ((((i : Fin (NC.npts 3 (2 * M))).1 : ℝ) + 1 / 2) * (Real.pi / NC.npts 3 (2 * M))) *
        spheroidal a (((j.1 : ℝ) + 1 / 2) * (L / NC.npts 3 M)) (((i.1 : ℝ) + 1 / 2) * (Real.pi / NC.npts 3 (2 * M)))) with hS
  set I := boxIntegral a L (wedge L) with hIdef
  have hI2 : ∫ r in (0 : ℝ)..L, ∫ θ in (0 : ℝ)..Real.pi, wedge L r θ * spheroidal a r θ = I / (2 * Real.pi) := by
    rw [hIdef, boxIntegral]; field_simp
  rw [hI2] at hc
  rw [hr_eq, ha_eq]
  have hp : (0 : ℝ) < NC.npts 3 (2 * M) := by exact_mod_cast npts_pos 3 (2 * M)
  have hq : (0 : ℝ) < NC.npts 3 M := by exact_mod_cast npts_pos 3 M
  calc _ ≤ 2 * Real.pi * (L / NC.npts 3 M) * (Real.pi / NC.npts 3 (2 * M)) * (8 / 9 * S) :=
        mul_le_mul_of_nonneg_left key (by positivity)
    _ = 16 / 9 * Real.pi * (L / NC.npts 3 M * (Real.pi / NC.npts 3 (2 * M)) * S) := by ring
    _ ≤ 16 / 9 * Real.pi * (I / (2 * Real.pi) + I / (32 * Real.pi)) :=
        mul_le_mul_of_nonneg_left (by linarith) (by positivity)
    _ = I - I / 18 := by field_simp; ring

/-! ## In Cartesian coordinates -/

/-- The box: the points whose distances to the two nuclei, at `(0, 0, ±a)`, sum up to less than `2 a cosh L`. -/
def Spec.body (a L : ℝ) : Set ((ℝ × ℝ) × ℝ) :=
  {x | √(x.1.1 ^ 2 + x.1.2 ^ 2 + (x.2 + a) ^ 2) + √(x.1.1 ^ 2 + x.1.2 ^ 2 + (x.2 - a) ^ 2) < 2 * a * Real.cosh L}

theorem body_integral {a L : ℝ} (ha : 0 < a) (hL : 0 < L) {g : ℝ → ℝ → ℝ} (hg : Continuous fun p : ℝ × ℝ => g p.1 p.2) :
    ∫ x in body a L, g (√(x.1.1 ^ 2 + x.1.2 ^ 2)) x.2 =
      boxIntegral a L fun r θ => g (a * Real.sinh r * Real.sin θ) (a * Real.cosh r * Real.cos θ) :=
  Spheroid.integral_body ha hL (g := fun p => g p.1 p.2) hg

/-- C102 in space, partial: for every continuous function `g` of the distance from the axis and the position along it,
with the same number of blocks in both directions, `integrate` of its values at the grid points `(Y, Z)` converges to the
integral over the box in three dimensions. Missing: different numbers of blocks (`C102_refuted`), and blocks of
more than twelve points, whose weights are not exact (`C06_refuted`). -/
theorem C102_volume_partial {N : ℕ} (hN : 2 ≤ N) (hN' : N ≤ 12) {a L : ℝ} (ha : 0 < a) (hL : 0 < L) {g : ℝ → ℝ → ℝ}
    (hg : Continuous fun p : ℝ × ℝ => g p.1 p.2) {δ : ℝ} (hδ : 0 < δ) :
    ∃ M₀, ∀ M ≥ M₀, ∀ wa wr : Fin (NC.npts N M) → ℝ, NC.Returns N M (.ok wa) → NC.Returns N M (.ok wr) →
      ∃ x, (mkGrid N M M a L wa wr).integrate (.d1 fun k => g (Init.Y _ _ a L k) (Init.Z _ _ a L k)) = .num x ∧
        |x - ∫ x in body a L, g (√(x.1.1 ^ 2 + x.1.2 ^ 2)) x.2| ≤ δ := by
  rw [body_integral ha hL hg]
  have e : ∀ M, (fun k => g (Init.Y (NC.npts N M) (NC.npts N M) a L k) (Init.Z (NC.npts N M) (NC.npts N M) a L k)) =
      sampled N M M L fun r θ => g (a * Real.sinh r * Real.sin θ) (a * Real.cosh r * Real.cos θ) := fun M => by
    funext k
    rw [Y_eq, Z_eq]
    rfl
  simp_rw [e]
  refine C102_converges_partial hN hN' hL (F := fun r θ => g (a * Real.sinh r * Real.sin θ) (a * Real.cosh r * Real.cos θ)) ?_ hδ
  exact hg.comp (f := fun p : ℝ × ℝ => (a * Real.sinh p.1 * Real.sin p.2, a * Real.cosh p.1 * Real.cos p.2)) (by fun_prop)

/-- The volume of the box is that of a spheroid with half axes `a cosh L`, `a sinh L`, `a sinh L`. -/
theorem body_volume {a L : ℝ} (ha : 0 < a) (hL : 0 < L) :
    ∫ _ in body a L, (1 : ℝ) = 4 / 3 * Real.pi * (a * Real.cosh L) * (a * Real.sinh L) ^ 2 := by
  rw [body_integral ha hL (g := fun _ _ => 1) continuous_const, boxIntegral]
  have h1 : ∀ r, ∫ θ in (0 : ℝ)..Real.pi, 1 * spheroidal a r θ = a ^ 3 * (2 * Real.sinh r ^ 3 + 4 / 3 * Real.sinh r) := by
    intro r
    have hd : ∀ θ ∈ Set.uIcc 0 Real.pi, HasDerivAt (fun θ => a ^ 3 * (-Real.cos θ * Real.sinh r ^ 3 +
        Real.sinh r * (-Real.cos θ + Real.cos θ ^ 3 / 3))) (1 * spheroidal a r θ) θ := by
      intro θ _
      have hc := Real.hasDerivAt_cos θ
      refine (((hc.neg.mul_const (Real.sinh r ^ 3)).add ((hc.neg.add ((hc.pow 3).div_const 3)).const_mul
        (Real.sinh r))).const_mul (a ^ 3)).congr_deriv ?_
      have := Real.sin_sq θ
      simp only [spheroidal]
      linear_combination -a ^ 3 * Real.sinh r * Real.sin θ * this
    rw [intervalIntegral.integral_eq_sub_of_hasDerivAt hd
      ((Continuous.intervalIntegrable (by unfold spheroidal; fun_prop) _ _))]
    simp only [Real.cos_pi, Real.cos_zero]
    ring
  simp_rw [h1]
  have hd : ∀ r ∈ Set.uIcc 0 L, HasDerivAt (fun r => a ^ 3 * (2 / 3 * Real.cosh r * Real.sinh r ^ 2))
      (a ^ 3 * (2 * Real.sinh r ^ 3 + 4 / 3 * Real.sinh r)) r := by
    intro r _
    refine ((((Real.hasDerivAt_cosh r).const_mul (2 / 3)).mul ((Real.hasDerivAt_sinh r).pow 2)).const_mul (a ^ 3)).congr_deriv ?_
    have := Real.cosh_sq r
    simp
    refine .inl ?_
    linear_combination 4 / 3 * Real.sinh r * this
  rw [intervalIntegral.integral_eq_sub_of_hasDerivAt hd (Continuous.intervalIntegrable (by fun_prop) _ _)]
  simp only [Real.sinh_zero]
  ring

/-- The sum of the weights converges to the volume of the spheroid. -/
example {a L : ℝ} (ha : 0 < a) (hL : 0 < L) {δ : ℝ} (hδ : 0 < δ) : ∃ M₀, ∀ M ≥ M₀, ∀ wa wr : Fin (NC.npts 4 M) → ℝ,
    NC.Returns 4 M (.ok wa) → NC.Returns 4 M (.ok wr) → ∃ x, (mkGrid 4 M M a L wa wr).integrate (.d1 fun _ => 1) = .num x ∧
      |x - 4 / 3 * Real.pi * (a * Real.cosh L) * (a * Real.sinh L) ^ 2| ≤ δ := by
  have := C102_volume_partial (N := 4) (by norm_num) (by norm_num) ha hL (g := fun _ _ => 1) continuous_const hδ
  rwa [body_volume ha hL] at this

/-- Three points per block and at least two blocks: weights are returned. -/
example (M : ℕ) (hM : 2 ≤ M) : ∃ W : Fin (NC.npts 3 M) → ℝ, NC.Returns 3 M (.ok W) := by
  obtain ⟨r, hr⟩ := NC_returns 3 M
  obtain ⟨w, e, hw, he, rfl⟩ := hr
  have hle : 3 - 1 ≤ NC.npts 3 M := by unfold NC.npts; omega
  simp only [NC.npts] at hle
  refine ⟨fun k => (List.range M).foldl (NC.addBlock 3 (NC.ext0 w)) (NC.edges 3 M (NC.ext0 e)) k.1, w, e, hw, he, ?_⟩
  simp only [NC.assemble, NC.assignable, NC.sliceLen, NC.npts, min_eq_left hle, decide_true, Bool.true_or, not_true,
    if_false, show ¬ (3 - 1 = 0) by norm_num]

end Verif
