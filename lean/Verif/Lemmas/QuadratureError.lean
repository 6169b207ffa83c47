import Verif.Lemmas.NCComposite
import Mathlib.Analysis.Calculus.Taylor

/-! # Error of the composite Newton-Cotes rule -/

namespace Verif
open Polynomial Spec Set

/-- On every short piece of `[0, b]` the function is within `ε` of a polynomial of degree `< d`. -/
def LocallyPoly (f : ℝ → ℝ) (b len ε : ℝ) (d : ℕ) : Prop :=
  ∀ u v, 0 ≤ u → v ≤ b → v - u ≤ len → ∃ q : ℝ[X], q.degree < d ∧ ∀ t ∈ Icc u v, |f t - q.eval t| ≤ ε

theorem degree_comp_affine_lt {q : ℝ[X]} {d : ℕ} (h : q.degree < d) (a c : ℝ) :
    (q.comp (C a + C c * X)).degree < d := by
  by_cases hq : q.comp (C a + C c * X) = 0
  · rw [hq, degree_zero]; exact WithBot.bot_lt_coe d
  · have hq0 : q ≠ 0 := by rintro rfl; simp at hq
    rw [← natDegree_lt_iff_degree_lt hq]
    rw [← natDegree_lt_iff_degree_lt hq0] at h
    refine lt_of_le_of_lt natDegree_comp_le ?_
    have : (C a + C c * X : ℝ[X]).natDegree ≤ 1 := by
      refine (natDegree_add_le _ _).trans (max_le (by simp) (natDegree_C_mul_le _ _ |>.trans natDegree_X_le))
    calc _ ≤ q.natDegree * 1 := Nat.mul_le_mul_left _ this
      _ < d := by omega

/-- Error of one rule moved to `a + h·`, for a function close to a polynomial. -/
theorem rule_error {ι : Type*} [Fintype ι] {x w : ι → ℝ} {hi : ℝ} {d : ℕ} (hex : ExactOn x w 0 hi d) (h0 : 0 ≤ hi)
    {a h top : ℝ} (hh : 0 < h) (htop : hi ≤ top) (hx : ∀ j, x j ∈ Icc 0 top) {f : ℝ → ℝ} (hf : Continuous f) {ε : ℝ}
    {q : ℝ[X]} (hq : q.degree < d) (hε : ∀ t ∈ Icc a (a + h * top), |f t - q.eval t| ≤ ε) :
    |h * ∑ j, w j * f (a + h * x j) - ∫ t in a..(a + h * hi), f t| ≤ h * ((∑ j, |w j|) + hi) * ε := by
  have hq2 := hex _ (degree_comp_affine_lt hq a h)
  simp only [eval_comp, eval_add, eval_mul, eval_C, eval_X] at hq2
  have hs : ∫ t in (0 : ℝ)..hi, q.eval (a + h * t) = h⁻¹ * ∫ t in a..(a + h * hi), q.eval t := by
    rw [intervalIntegral.integral_comp_add_mul (fun t => q.eval t) hh.ne']
    simp
  rw [hs] at hq2
  have hI : ∫ t in a..(a + h * hi), q.eval t = h * ∑ j, w j * q.eval (a + h * x j) := by
    rw [hq2]; field_simp
  have e : h * ∑ j, w j * f (a + h * x j) - ∫ t in a..(a + h * hi), f t =
      h * ∑ j, w j * (f (a + h * x j) - q.eval (a + h * x j)) - ∫ t in a..(a + h * hi), (f t - q.eval t) := by
    rw [intervalIntegral.integral_sub (hf.intervalIntegrable _ _) (q.continuous.intervalIntegrable _ _), hI]
    simp only [mul_sub, Finset.sum_sub_distrib]
    ring
  rw [e]
  have h1 : |h * ∑ j, w j * (f (a + h * x j) - q.eval (a + h * x j))| ≤ h * ((∑ j, |w j|) * ε) := by
    rw [abs_mul, abs_of_pos hh, Finset.sum_mul]
    refine mul_le_mul_of_nonneg_left ((Finset.abs_sum_le_sum_abs _ _).trans (Finset.sum_le_sum fun j _ => ?_)) hh.le
    rw [abs_mul]
    refine mul_le_mul_of_nonneg_left (hε _ ⟨?_, ?_⟩) (abs_nonneg _)
    · have := mul_nonneg hh.le (hx j).1; linarith
    · have := mul_le_mul_of_nonneg_left (hx j).2 hh.le; linarith
  have hle : a ≤ a + h * hi := by have := mul_nonneg hh.le h0; linarith
  have h2 : |∫ t in a..(a + h * hi), (f t - q.eval t)| ≤ ε * |a + h * hi - a| := by
    refine intervalIntegral.norm_integral_le_of_norm_le_const (f := fun t => f t - q.eval t) fun t ht => ?_
    rw [uIoc_of_le hle] at ht
    refine hε t ⟨ht.1.le, ht.2.trans ?_⟩
    have := mul_le_mul_of_nonneg_left htop hh.le; linarith
  rw [add_sub_cancel_left, abs_of_nonneg (mul_nonneg hh.le h0)] at h2
  calc _ ≤ _ := abs_sub _ _
    _ ≤ h * ((∑ j, |w j|) * ε) + ε * (h * hi) := add_le_add h1 h2
    _ = _ := by ring

namespace NC

/-- Constant of the error bounds: depends only on the number of points of a block. -/
noncomputable def spread {N : ℕ} (w e : Fin N → ℝ) : ℝ := (∑ j, |w j|) + N + 2 * ((∑ j, |e j|) + 1)

theorem spread_nonneg {N : ℕ} (w e : Fin N → ℝ) : 0 ≤ spread w e := by
  unfold spread; positivity

/-- The composite weights are bounded in the mean. -/
theorem composite_norm {N Nm : ℕ} (hN : 2 ≤ N) (hNm : 1 ≤ Nm) (hNo : NoOverlap N Nm) (w e : Fin N → ℝ) :
    ∑ k ∈ Finset.range (npts N Nm), |(List.range Nm).foldl (addBlock N (ext0 w)) (edges N Nm (ext0 e)) k| ≤
      spread w e * npts N Nm := by
  set W : ℕ → ℝ := (List.range Nm).foldl (addBlock N (ext0 w)) (edges N Nm (ext0 e)) with hW
  let g : ℕ → ℝ := fun k => if 0 ≤ W k then 1 else -1
  have hg : ∀ k, |g k| = 1 := fun k => by simp only [g]; split <;> simp
  have e1 : ∀ k, |W k| = W k * g k := fun k => by
    simp only [g]
    split
    · rename_i h; rw [abs_of_nonneg h, mul_one]
    · rename_i h; rw [abs_of_neg (not_le.mp h), mul_neg, mul_one]
  simp_rw [e1]
  rw [hW, sum_composite hN hNm hNo (ext0 w) (ext0 e) g]
  have hle : ∀ (v : ℕ → ℝ) (m : ℕ) (γ : ℕ → ℝ), (∀ k, |γ k| = 1) →
      ∑ j ∈ Finset.range m, v j * γ j ≤ ∑ j ∈ Finset.range m, |v j| := fun v m γ hγ =>
    Finset.sum_le_sum fun j _ => (le_abs_self _).trans (by rw [abs_mul, hγ, mul_one])
  have hE : ∑ j ∈ Finset.range (N - 1), |ext0 e (j + 1)| ≤ ∑ j, |e j| := by
    obtain ⟨n, rfl⟩ : ∃ n, N = n + 1 := ⟨N - 1, by omega⟩
    rw [Fin.sum_univ_succ, Finset.sum_range, Nat.add_sub_cancel]
    refine le_trans (le_of_eq ?_) (le_add_of_nonneg_left (abs_nonneg _))
    refine Finset.sum_congr rfl fun j _ => ?_
    have hj : j.1 + 1 < n + 1 := Nat.succ_lt_succ j.2
    simp only [ext0, hj, dite_true]
    rfl
  have hw' : ∑ j ∈ Finset.range N, |ext0 w j| = ∑ j, |w j| := by
    rw [Finset.sum_range]; simp [ext0]
  have a1 := (hle (fun j => ext0 e (j + 1)) (N - 1) g hg).trans hE
  have a2 := (hle (fun j => ext0 e (j + 1)) (N - 1) (fun j => g (npts N Nm - 1 - j)) fun k => hg _).trans hE
  have a3 : ∑ i ∈ Finset.range Nm, ∑ j ∈ Finset.range N, ext0 w j * g ((N - 1) * i + j) ≤ Nm * ∑ j, |w j| := by
    refine (Finset.sum_le_sum fun i _ => (hle (ext0 w) N (fun j => g ((N - 1) * i + j)) fun k => hg _).trans_eq hw').trans ?_
    simp
  have hn : (Nm : ℝ) + 1 ≤ npts N Nm := by
    have : Nm + 1 ≤ npts N Nm := by
      unfold npts
      have := Nat.mul_le_mul_right Nm (show 1 ≤ N - 1 by omega)
      omega
    exact_mod_cast this
  have p1 : 0 ≤ ∑ j, |w j| := by positivity
  have p2 : 0 ≤ ∑ j, |e j| := by positivity
  have hN' : (0 : ℝ) ≤ N := by positivity
  unfold spread
  have hNm' : (0 : ℝ) ≤ Nm := by positivity
  nlinarith [mul_le_mul_of_nonneg_left hn p1, mul_le_mul_of_nonneg_left hn p2, mul_nonneg hN' hNm']

set_option maxHeartbeats 1000000 in
/-- Error of the composite rule on `[0, npts h]` for a function that is locally close to polynomials. -/
theorem composite_error {N Nm : ℕ} (hN : 2 ≤ N) (hNm : 1 ≤ Nm) (hNo : NoOverlap N Nm) {w e : Fin N → ℝ}
    (hw : IsLstsq (powMatrix (blockPts N)) (blockRhs N) w) (he : IsLstsq (powMatrix (edgePts N)) (edgeRhs N) e)
    {h : ℝ} (hh : 0 < h) {f : ℝ → ℝ} (hf : Continuous f) {ε : ℝ} (hl : LocallyPoly f (npts N Nm * h) (N * h) ε N) :
    |h * (∑ k ∈ Finset.range (npts N Nm), (List.range Nm).foldl (addBlock N (ext0 w)) (edges N Nm (ext0 e)) k *
        f (((k : ℝ) + 1 / 2) * h)) - ∫ t in (0 : ℝ)..(npts N Nm * h), f t| ≤
      spread w e * (npts N Nm * h) * ε + (∑ j, |e j|) * h * (|f 0| + |f (npts N Nm * h)|) := by
  have hNp : N ≤ npts N Nm := by
    unfold npts; have := Nat.mul_le_mul_left (N - 1) hNm; omega
  have hN1 : (1 : ℝ) ≤ N := by exact_mod_cast (by omega : 1 ≤ N)
  have hNpr : (N : ℝ) ≤ npts N Nm := by exact_mod_cast hNp
  have hnp : (npts N Nm : ℝ) = ((N : ℝ) - 1) * Nm + 1 := by
    unfold npts; push_cast [Nat.cast_sub (show 1 ≤ N by omega)]; ring
  have hε : 0 ≤ ε := by
    obtain ⟨q, -, hq⟩ := hl 0 0 le_rfl (by positivity) (by simp; positivity)
    exact (abs_nonneg _).trans (hq 0 ⟨le_rfl, le_rfl⟩)
  set b : ℝ := npts N Nm * h with hb
  rw [sum_composite hN hNm hNo (ext0 w) (ext0 e) fun k => f (((k : ℝ) + 1 / 2) * h)]
  -- an edge
  have edge : ∀ g : ℝ → ℝ, Continuous g → LocallyPoly g b (N * h) ε N →
      |h * (∑ j ∈ Finset.range (N - 1), ext0 e (j + 1) * g (((j : ℝ) + 1 / 2) * h)) - ∫ t in (0 : ℝ)..(1 / 2 * h), g t| ≤
        h * ((∑ j, |e j|) + 1) * ε + (∑ j, |e j|) * h * |g 0| := by
    intro g hg hgl
    have hx : ∀ j, (edgePts N j : ℝ) ∈ Icc 0 ((N : ℝ) - 1 / 2) := by
      intro j
      have hj : (j.1 : ℝ) + 1 ≤ N := by exact_mod_cast j.2
      by_cases h0 : j.1 = 0
      · simp only [edgePts, h0, if_true]
        exact ⟨le_rfl, by linarith⟩
      · have : (1 : ℝ) ≤ j.1 := by exact_mod_cast Nat.one_le_iff_ne_zero.mpr h0
        simp only [edgePts, h0, if_false]
        exact ⟨by linarith, by linarith⟩
    obtain ⟨q, hq, hq2⟩ := hgl 0 (0 + h * ((N : ℝ) - 1 / 2)) le_rfl
      (by rw [hb]; nlinarith) (by nlinarith)
    have hr := rule_error (edge_exact he) (by norm_num) (a := 0) hh (by linarith) hx hg hq hq2
    have hsplit : ∑ j, e j * g (0 + h * edgePts N j) =
        e ⟨0, by omega⟩ * g 0 + ∑ j ∈ Finset.range (N - 1), ext0 e (j + 1) * g (((j : ℝ) + 1 / 2) * h) := by
      obtain ⟨n, rfl⟩ : ∃ n, N = n + 1 := ⟨N - 1, by omega⟩
      rw [Fin.sum_univ_succ, Finset.sum_range]
      congr 1
      · simp [edgePts]
      · refine Finset.sum_congr rfl fun j _ => ?_
        have hj : j.1 + 1 < n + 1 := Nat.succ_lt_succ j.2
        have hx : (0 : ℝ) + h * (((j.1 + 1 : ℕ) : ℝ) - 1 / 2) = ((j.1 : ℝ) + 1 / 2) * h := by push_cast; ring
        simp only [ext0, hj, dite_true, edgePts, Fin.val_succ, Nat.succ_ne_zero, if_false, hx]
        rfl
    rw [hsplit] at hr
    have e0 : |e ⟨0, by omega⟩| ≤ ∑ j, |e j| :=
      Finset.single_le_sum (f := fun j => |e j|) (fun j _ => abs_nonneg _) (Finset.mem_univ _)
    rw [zero_add, mul_comm h (1 / 2 : ℝ)] at hr
    rw [abs_le] at hr ⊢
    have hm : |h * (e ⟨0, by omega⟩ * g 0)| ≤ (∑ j, |e j|) * h * |g 0| := by
      rw [abs_mul, abs_mul, abs_of_pos hh]
      have := mul_le_mul_of_nonneg_right e0 (abs_nonneg (g 0))
      nlinarith
    have hm' := abs_le.mp hm
    have hx : h * ((∑ j, |e j|) + 1 / 2) * ε ≤ h * ((∑ j, |e j|) + 1) * ε := by
      have := mul_nonneg hh.le hε; nlinarith
    constructor <;> nlinarith [hr.1, hr.2, hm'.1, hm'.2]
  have E1 := edge f hf hl
  have E2 := edge (fun t => f (b - t)) (hf.comp (continuous_const.sub continuous_id)) (by
    intro u v hu hv huv
    obtain ⟨q, hq, hq2⟩ := hl (b - v) (b - u) (by linarith) (by linarith) (by linarith)
    refine ⟨q.comp (C b - X), degree_comp_C_sub_X_lt hq b, fun t ht => ?_⟩
    simpa using hq2 (b - t) ⟨by linarith [ht.2], by linarith [ht.1]⟩)
  rw [intervalIntegral.integral_comp_sub_left (fun t => f t) b, sub_zero] at E2
  have E2s : ∑ j ∈ Finset.range (N - 1), ext0 e (j + 1) * f (b - ((j : ℝ) + 1 / 2) * h) =
      ∑ j ∈ Finset.range (N - 1), ext0 e (j + 1) * f ((((npts N Nm - 1 - j : ℕ) : ℝ) + 1 / 2) * h) := by
    refine Finset.sum_congr rfl fun j hj => ?_
    have hj := Finset.mem_range.mp hj
    congr 2
    rw [Nat.sub_sub, Nat.cast_sub (by omega), hb]
    push_cast; ring
  rw [E2s] at E2
  -- the blocks
  have hxb : ∀ j, (blockPts N j : ℝ) ∈ Icc 0 ((N : ℝ) - 1) := by
    intro j
    have hj : (j.1 : ℝ) + 1 ≤ N := by exact_mod_cast j.2
    exact ⟨by simp [blockPts], by simp only [blockPts]; linarith⟩
  let lo : ℕ → ℝ := fun i => (((N : ℝ) - 1) * i + 1 / 2) * h
  have B : ∀ i ∈ Finset.range Nm, |h * (∑ j ∈ Finset.range N, ext0 w j * f ((((((N - 1) * i + j : ℕ)) : ℝ) + 1 / 2) * h)) -
      ∫ t in lo i..lo (i + 1), f t| ≤ h * ((∑ j, |w j|) + ((N : ℝ) - 1)) * ε := by
    intro i hi
    have hi : (i : ℝ) + 1 ≤ Nm := by exact_mod_cast Finset.mem_range.mp hi
    have hup : lo i + h * ((N : ℝ) - 1) = lo (i + 1) := by simp only [lo]; push_cast; ring
    have hlo : 0 ≤ lo i := by
      have : 0 ≤ ((N : ℝ) - 1) * i := mul_nonneg (by linarith) (by positivity)
      simp only [lo]; positivity
    obtain ⟨q, hq, hq2⟩ := hl (lo i) (lo i + h * ((N : ℝ) - 1)) hlo (by
        rw [hup, hb, hnp]
        have := mul_le_mul_of_nonneg_left hi (show 0 ≤ (N : ℝ) - 1 by linarith)
        simp only [lo]; push_cast
        exact mul_le_mul_of_nonneg_right (by linarith) hh.le) (by nlinarith)
    have hr := rule_error (block_exact hw) (by linarith) hh le_rfl hxb hf hq hq2
    rw [hup] at hr
    rw [sum_ext0 w fun j => f ((((((N - 1) * i + j : ℕ)) : ℝ) + 1 / 2) * h)]
    convert hr using 6 with j
    simp only [blockPts, lo]
    push_cast [Nat.cast_sub (show 1 ≤ N by omega)]
    ring_nf
  have hint : ∀ u v : ℝ, IntervalIntegrable f MeasureTheory.volume u v := fun u v => hf.intervalIntegrable u v
  have BS : |h * (∑ i ∈ Finset.range Nm, ∑ j ∈ Finset.range N, ext0 w j * f ((((((N - 1) * i + j : ℕ)) : ℝ) + 1 / 2) * h)) -
      ∫ t in (1 / 2 * h)..(b - 1 / 2 * h), f t| ≤ Nm * (h * ((∑ j, |w j|) + ((N : ℝ) - 1)) * ε) := by
    have hs := intervalIntegral.sum_integral_adjacent_intervals (n := Nm) (f := f) (a := lo)
      (μ := MeasureTheory.volume) (fun k _ => hint _ _)
    have h0 : lo 0 = 1 / 2 * h := by simp [lo]
    have h1 : lo Nm = b - 1 / 2 * h := by simp only [lo, hb, hnp]; ring
    rw [h0, h1] at hs
    rw [← hs, Finset.mul_sum, ← Finset.sum_sub_distrib]
    refine (Finset.abs_sum_le_sum_abs _ _).trans ((Finset.sum_le_sum B).trans ?_)
    simp
  have h9 := intervalIntegral.integral_add_adjacent_intervals (hint 0 (1 / 2 * h)) (hint (1 / 2 * h) (b - 1 / 2 * h))
  have h10 := intervalIntegral.integral_add_adjacent_intervals (hint 0 (b - 1 / 2 * h)) (hint (b - 1 / 2 * h) b)
  rw [← h10, ← h9]
  have hNmb : (Nm : ℝ) * h ≤ b := by
    rw [hb, hnp]
    refine mul_le_mul_of_nonneg_right ?_ hh.le
    have : (0 : ℝ) ≤ Nm := by positivity
    have h2 : (2 : ℝ) ≤ N := by exact_mod_cast hN
    nlinarith
  have hhb : h ≤ b := by
    rw [hb]; exact le_mul_of_one_le_left hh.le (hN1.trans hNpr)
  have p1 : 0 ≤ ∑ j, |w j| := by positivity
  have p2 : 0 ≤ ∑ j, |e j| := by positivity
  have t1 : Nm * (h * ((∑ j, |w j|) + ((N : ℝ) - 1)) * ε) ≤ ((∑ j, |w j|) + N) * b * ε := by
    have : (Nm : ℝ) * h * ((∑ j, |w j|) + ((N : ℝ) - 1)) ≤ b * ((∑ j, |w j|) + N) :=
      mul_le_mul hNmb (by linarith) (by linarith) (by linarith)
    nlinarith
  have t2 : h * ((∑ j, |e j|) + 1) * ε ≤ b * ((∑ j, |e j|) + 1) * ε := by
    have := mul_nonneg (show 0 ≤ (∑ j, |e j|) + 1 by linarith) hε
    nlinarith
  rw [abs_le] at E1 E2 BS ⊢
  unfold spread
  constructor <;> nlinarith [E1.1, E1.2, E2.1, E2.2, BS.1, BS.2]

end NC
end Verif
