import Verif.Lemmas.Weights
import Verif.Props.C06_C07
import Verif.Props.C03_C05

/-!
# C08 quadrature layout, C09 integrate
-/

namespace Verif
open Spec Init Grid

theorem integrate_mkGrid (NP NMa NMr : ℕ) (a L : ℝ) (wa : Fin (NC.npts NP NMa) → ℝ)
    (wr : Fin (NC.npts NP NMr) → ℝ) (f : Fin (NC.npts NP NMa * NC.npts NP NMr) → ℝ) :
    (mkGrid NP NMa NMr a L wa wr).integrate (.d1 f) =
      .num (2 * Real.pi * Init.hr (NC.npts NP NMr) L * Init.ha (NC.npts NP NMa) *
        ∑ k : Fin (NC.npts NP NMa * NC.npts NP NMr), wiFlat wa wr k * w _ _ a L k * f k) := rfl

/-- C08 (part): with equal block counts `integrate` of a 1-d field is the tensor-product
Newton-Cotes sum over the grid points.  Missing: unequal block counts, where the claim is false
(`C08_refuted`). -/
theorem C08_tensor_partial (NP NM : ℕ) (a L : ℝ) (wa wr : Fin (NC.npts NP NM) → ℝ)
    (ha : NC.Returns NP NM (.ok wa)) (hr : NC.Returns NP NM (.ok wr))
    (f : Fin (NC.npts NP NM * NC.npts NP NM) → ℝ) :
    (mkGrid NP NM NM a L wa wr).integrate (.d1 f) =
      .num (2 * Real.pi * Init.hr (NC.npts NP NM) L * Init.ha (NC.npts NP NM) *
        tensorSum wa wr (fun k => w _ _ a L k * f k)) := by
  have e : wa = wr := by injection ha.unique hr
  subst e
  rw [integrate_mkGrid, IntRes.num.injEq, tensorSum, sum_grid]
  congr 1
  refine Finset.sum_congr rfl fun i _ => Finset.sum_congr rfl fun j _ => ?_
  rw [wiFlat_self, ia_at2, ir_at2]; ring

/-- The Newton-Cotes weights for two points per block. -/
theorem NC_two (w e : Fin 2 → ℝ)
    (hw : IsLstsq (NC.powMatrix (NC.blockPts 2)) (NC.blockRhs 2) w)
    (he : IsLstsq (NC.powMatrix (NC.edgePts 2)) (NC.edgeRhs 2) e) :
    w 0 = 1 / 2 ∧ w 1 = 1 / 2 ∧ e 1 = 1 / 4 := by
  have e1 := NC.edge_moments he 1 (by norm_num)
  have w0 := NC.block_moments hw 0 (by norm_num)
  have w1 := NC.block_moments hw 1 (by norm_num)
  simp only [Fin.sum_univ_two, NC.edgePts, NC.blockPts] at e1 w0 w1
  norm_num at e1 w0 w1
  refine ⟨by linarith, by linarith, by linarith⟩

theorem NC_two_one (wa : Fin (NC.npts 2 1) → ℝ) (h : NC.Returns 2 1 (.ok wa)) (k) :
    wa k = 3 / 4 := by
  obtain ⟨w, e, hw, he, h⟩ := h.exact (by norm_num)
  obtain ⟨w0, w1, e1⟩ := NC_two w e hw he
  have hk : k.1 < 2 := k.2
  simp only [NC.assemble, NC.assignable, NC.sliceLen] at h
  norm_num at h
  subst h
  obtain ⟨k, hk'⟩ := k
  simp only at hk
  interval_cases k <;>
    simp [NC.addBlock, NC.edges, NC.npts, NC.ext0] <;> linarith

theorem NC_two_two (wa : Fin (NC.npts 2 2) → ℝ) (h : NC.Returns 2 2 (.ok wa)) (k) :
    wa k = if k.1 = 1 then 1 else 3 / 4 := by
  obtain ⟨w, e, hw, he, h⟩ := h.exact (by norm_num)
  obtain ⟨w0, w1, e1⟩ := NC_two w e hw he
  have hk : k.1 < 3 := k.2
  simp only [NC.assemble, NC.assignable, NC.sliceLen] at h
  norm_num at h
  subst h
  obtain ⟨k, hk'⟩ := k
  simp only at hk
  interval_cases k <;>
    simp [NC.addBlock, NC.edges, NC.npts, NC.ext0, List.range_succ] <;> linarith

/-- C08 fails for unequal block counts: on the grid `NP = 2`, `NM = [1,2]` there is a field whose
integral is not the tensor-product sum, for every half bond length and box size. -/
theorem C08_refuted (a L : ℝ) (ha0 : 0 < a) (hL : 0 < L)
    (wa : Fin (NC.npts 2 1) → ℝ) (wr : Fin (NC.npts 2 2) → ℝ)
    (ha : NC.Returns 2 1 (.ok wa)) (hr : NC.Returns 2 2 (.ok wr)) :
    ∃ f : Fin (NC.npts 2 1 * NC.npts 2 2) → ℝ,
      (mkGrid 2 1 2 a L wa wr).integrate (.d1 f) ≠
      .num (2 * Real.pi * Init.hr (NC.npts 2 2) L * Init.ha (NC.npts 2 1) *
        tensorSum wa wr (fun k => w _ _ a L k * f k)) := by
  have h1 := NC_two_one wa ha
  have h2 := NC_two_two wr hr
  let k1 : Fin (NC.npts 2 1 * NC.npts 2 2) := ⟨1, by norm_num⟩
  refine ⟨fun k => if k = k1 then 1 else 0, ?_⟩
  have hw := (C04_positive a L ha0 hL k1).1
  rw [integrate_mkGrid, tensorSum, ne_eq, IntRes.num.injEq]
  have p1 : 2 * Real.pi * Init.hr (NC.npts 2 2) L * Init.ha (NC.npts 2 1) ≠ 0 := by
    rw [hr_eq, ha_eq]
    have := Real.pi_pos
    simp only [NC.npts]
    positivity
  intro h
  have h := mul_left_cancel₀ p1 h
  have e1 : ∀ g : Fin (NC.npts 2 1 * NC.npts 2 2) → ℝ, ∑ i, ∑ j, wa i * wr j * g (at2 i j) =
      ∑ k, (wa (ia k) * wr (ir k)) * g k := by
    intro g
    rw [sum_grid]
    exact Finset.sum_congr rfl fun i _ => Finset.sum_congr rfl fun j _ => by rw [ia_at2, ir_at2]
  rw [e1 (fun k => w _ _ a L k * if k = k1 then 1 else 0)] at h
  simp only [mul_ite, mul_one, mul_zero, Finset.sum_ite_eq', Finset.mem_univ, if_true] at h
  simp only [wiFlat, h1, h2, ir, k1] at h
  norm_num at h
  exact hw.ne' h

/-- The weight vectors needed by `C08_tensor_partial` and `C08_refuted` exist. -/
example : (∃ wa : Fin (NC.npts 2 1) → ℝ, NC.Returns 2 1 (.ok wa)) ∧
    (∃ wr : Fin (NC.npts 2 2) → ℝ, NC.Returns 2 2 (.ok wr)) := by
  constructor
  · obtain ⟨r, hr⟩ := NC_returns 2 1
    obtain ⟨wi, rfl, -⟩ := C07_composite_partial (N := 2) (Nm := 1) le_rfl (by norm_num) (by norm_num) hr
    exact ⟨wi, hr⟩
  · obtain ⟨r, hr⟩ := NC_returns 2 2
    obtain ⟨wi, rfl, -⟩ := C07_composite_partial (N := 2) (Nm := 2) le_rfl (by norm_num) (by norm_num) hr
    exact ⟨wi, hr⟩

section
variable {K : Type*} [Field K]

/-- C09: `integrate` of 1-d fields is linear. -/
theorem C09_linear (G : Grid K) (c : K) (f g : G.Fld) (x y : K)
    (hf : G.integrate (.d1 f) = .num x) (hg : G.integrate (.d1 g) = .num y) :
    G.integrate (.d1 (fun k => c * f k + g k)) = .num (c * x + y) := by
  simp only [integrate, IntRes.num.injEq] at hf hg ⊢
  subst hf; subst hg
  rw [show c * ((2 * G.pi * G.hr * G.ha) * ∑ k, G.wi k * G.w k * f k) +
      (2 * G.pi * G.hr * G.ha) * ∑ k, G.wi k * G.w k * g k =
      (2 * G.pi * G.hr * G.ha) * (c * (∑ k, G.wi k * G.w k * f k) + ∑ k, G.wi k * G.w k * g k) by
    ring]
  congr 1
  rw [Finset.mul_sum, ← Finset.sum_add_distrib]
  exact Finset.sum_congr rfl fun k _ => by ring

/-- C09: an array with `p ≥ 2` columns returns, in every row of column `s`, the integral of that
column. -/
theorem C09_columns (G : Grid K) (p : ℕ) (hp : 2 ≤ p) (f : G.Cols p) :
    ∃ r : G.Cols p, G.integrate (.d2 p f) = .arr p r ∧
      ∀ s k, G.integrate (.d1 (f s)) = .num (r s k) := by
  match p, hp with
  | p + 2, _ => exact ⟨_, rfl, fun s k => rfl⟩

/-- C09 fails for a one-column array: on every grid with at least two points and some non-zero
weight, there is a field whose integral as an `(Nelem,1)` array differs from its integral as a
1-d array. -/
theorem C09_column_refuted [CharZero K] (G : Grid K) (hN : 2 ≤ G.Na * G.Nr)
    (hp : 2 * G.pi * G.hr * G.ha ≠ 0) (hw : ∃ k, G.wi k * G.w k ≠ 0) :
    ∃ f : G.Fld, G.integrate (.d2 1 (fun _ => f)) ≠ G.integrate (.d1 f) := by
  by_contra hcon
  push Not at hcon
  have key : ∀ k0 : G.Ix, ∑ j, G.wi j * G.w j = G.wi k0 * G.w k0 := by
    intro k0
    have h := hcon (fun k => if k = k0 then 1 else 0)
    simp only [integrate, IntRes.num.injEq, mul_ite, mul_one, mul_zero] at h
    have h := mul_left_cancel₀ hp h
    simpa using h
  obtain ⟨k0, hk0⟩ := hw
  have h1 : ∑ j : G.Ix, G.wi j * G.w j = ∑ _j : G.Ix, G.wi k0 * G.w k0 :=
    Finset.sum_congr rfl fun j _ => by rw [← key j, key k0]
  rw [key k0, Finset.sum_const, Finset.card_univ, Fintype.card_fin, nsmul_eq_mul] at h1
  have h2 : (((G.Na * G.Nr : ℕ) : K) - 1) * (G.wi k0 * G.w k0) = 0 := by
    rw [sub_mul, ← h1, one_mul, sub_self]
  rcases mul_eq_zero.mp h2 with h3 | h3
  · have : ((G.Na * G.Nr : ℕ) : K) = ((1 : ℕ) : K) := by rw [Nat.cast_one]; exact sub_eq_zero.mp h3
    have := Nat.cast_injective this
    omega
  · exact hk0 h3

end

/-- C09: on an initialised grid with equal block counts (at least two blocks of at most twelve points) `mirror` does not
change the integral. -/
theorem C09_mirror (NP NM : ℕ) (hNP : 2 ≤ NP) (hNP' : NP ≤ 12) (hNM : 2 ≤ NM) (a L : ℝ)
    (wa wr : Fin (NC.npts NP NM) → ℝ)
    (ha : NC.Returns NP NM (.ok wa)) (hr : NC.Returns NP NM (.ok wr))
    (f : Fin (NC.npts NP NM * NC.npts NP NM) → ℝ) :
    (mkGrid NP NM NM a L wa wr).integrate (.d1 ((mkGrid NP NM NM a L wa wr).mir f)) =
      (mkGrid NP NM NM a L wa wr).integrate (.d1 f) := by
  refine (C08_tensor_partial NP NM a L wa wr ha hr _).trans
    (Eq.trans ?_ (C08_tensor_partial NP NM a L wa wr ha hr f).symm)
  congr 2
  obtain ⟨wi, h1, -, hs⟩ := C07_composite_partial hNP hNP' (Or.inl hNM) ha
  injection h1 with h1; subst h1
  unfold tensorSum
  rw [← Equiv.sum_comp Fin.revPerm]
  refine Finset.sum_congr rfl fun i _ => Finset.sum_congr rfl fun j _ => ?_
  have e1 : (mkGrid NP NM NM a L wa wr).mir f (at2 i.rev j) = f (at2 i j) := by
    change f (mirK (at2 i.rev j)) = _
    rw [mirK_at2, Fin.rev_rev]
  have e2 : w _ _ a L (at2 i.rev j) = w _ _ a L (at2 i j) := by
    rw [← mirK_at2, w_eq, w_eq, Xr_mirK, sin_mirK]
  simp only [Fin.revPerm_apply]
  have e3 : wa i.rev = wa i := hs i
  rw [e1, e2, e3]

end Verif
