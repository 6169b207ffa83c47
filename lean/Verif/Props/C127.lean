import Verif.Lemmas.NCSign
import Verif.Props.C03_C05
import Verif.Props.C08_C09
import Verif.Props.C122

/-! # C127: when `integrate` of a non-negative field is non-negative -/

namespace Verif
open Init Grid

namespace Spec

/-- A rule that never gives a non-negative field a negative integral, and gives zero only to the zero field. -/
def PositiveRule (G : Grid ℝ) : Prop :=
  ∀ f : G.Fld, (∀ k, 0 ≤ f k) → ∃ x, G.integrate (.d1 f) = .num x ∧ 0 ≤ x ∧ (x = 0 ↔ ∀ k, f k = 0)

end Spec

theorem prefactor_pos {NP NMa NMr : ℕ} {L : ℝ} (hL : 0 < L) :
    0 < Init.ha (NC.npts NP NMa) ∧ 0 < Init.hr (NC.npts NP NMr) L := by
  rw [hr_eq, ha_eq]
  have := Real.pi_pos
  simp only [NC.npts]
  constructor <;> positivity

/-- C127 (rule): every weight `NC` returns is positive for 2 to 8 and 10 points in a block. -/
theorem C127_weights_partial {N Nm : ℕ} (h : N ∈ [2, 3, 4, 5, 6, 7, 8, 10]) (hNm : 1 ≤ Nm) {wi : Fin (NC.npts N Nm) → ℝ}
    (hr : NC.Returns N Nm (.ok wi)) (k : Fin (NC.npts N Nm)) : 0 < wi k :=
  hr.pos h hNm k

/-- C127 (grid): then the initialised grid satisfies the hypothesis of the rounding results, and `integrate` is positive. -/
theorem C127_positive_partial {NP NMa NMr : ℕ} (h : NP ∈ [2, 3, 4, 5, 6, 7, 8, 10]) (ha1 : 1 ≤ NMa) (hr1 : 1 ≤ NMr) {a L : ℝ}
    (ha0 : 0 < a) (hL : 0 < L) {wa : Fin (NC.npts NP NMa) → ℝ} {wr : Fin (NC.npts NP NMr) → ℝ}
    (ha : NC.Returns NP NMa (.ok wa)) (hr : NC.Returns NP NMr (.ok wr)) :
    Spec.NoNegativeWeights (mkGrid NP NMa NMr a L wa wr) ∧ Spec.PositiveRule (mkGrid NP NMa NMr a L wa wr) := by
  obtain ⟨pa, pr⟩ := prefactor_pos (NP := NP) (NMa := NMa) (NMr := NMr) hL
  have hwi : ∀ k, 0 < wiFlat wa wr k := fun k => mul_pos (ha.pos h ha1 _) (hr.pos h hr1 _)
  have hw : ∀ k, 0 < w (NC.npts NP NMa) (NC.npts NP NMr) a L k := fun k => (C04_positive a L ha0 hL k).1
  refine ⟨⟨Real.pi_pos.le, pr.le, pa.le, fun k => (hwi k).le, fun k => (hw k).le⟩, fun f hf => ⟨_, rfl, ?_, ?_⟩⟩
  · have := Real.pi_pos
    exact mul_nonneg (by positivity) (Finset.sum_nonneg fun k _ => mul_nonneg (mul_pos (hwi k) (hw k)).le (hf k))
  · have hp := Real.pi_pos
    have hc : (2 * Real.pi * Init.hr (NC.npts NP NMr) L * Init.ha (NC.npts NP NMa)) ≠ 0 := by positivity
    have hn : ∀ k ∈ Finset.univ, 0 ≤ wiFlat wa wr k * w (NC.npts NP NMa) (NC.npts NP NMr) a L k * f k :=
      fun k _ => mul_nonneg (mul_pos (hwi k) (hw k)).le (hf k)
    rw [mul_eq_zero, or_iff_right hc, Finset.sum_eq_zero_iff_of_nonneg hn]
    refine ⟨fun h0 k => ?_, fun h0 k _ => by rw [h0 k, mul_zero]⟩
    exact (mul_eq_zero.mp (h0 k (Finset.mem_univ k))).resolve_left (mul_pos (hwi k) (hw k)).ne'

/-- C127 (orbitals): the norm that `calc_density` divides by is positive for every orbital that is not identically zero. -/
theorem C127_norm_partial {NP NMa NMr : ℕ} (h : NP ∈ [2, 3, 4, 5, 6, 7, 8, 10]) (ha1 : 1 ≤ NMa) (hr1 : 1 ≤ NMr) {a L : ℝ}
    (ha0 : 0 < a) (hL : 0 < L) {wa : Fin (NC.npts NP NMa) → ℝ} {wr : Fin (NC.npts NP NMr) → ℝ}
    (ha : NC.Returns NP NMa (.ok wa)) (hr : NC.Returns NP NMr (.ok wr)) (phi : (mkGrid NP NMa NMr a L wa wr).Fld) {k}
    (hk : phi k ≠ 0) : 0 < (mkGrid NP NMa NMr a L wa wr).integ fun k => phi k ^ 2 := by
  obtain ⟨x, e, h0, h1⟩ := (C127_positive_partial h ha1 hr1 ha0 hL ha hr).2 (fun k => phi k ^ 2) fun k => sq_nonneg _
  rw [Grid.integrate, IntRes.num.injEq] at e
  rw [show (mkGrid NP NMa NMr a L wa wr).integ (fun k => phi k ^ 2) = x from e]
  exact lt_of_le_of_ne h0 fun hx => hk (pow_eq_zero_iff (two_ne_zero) |>.mp (h1.mp hx.symm k))

/-- C127 fails for 9, 11 and 12 points in a block: on every such grid there is an orbital whose square, a non-negative field,
has a negative integral. -/
theorem C127_refuted {NP NMa NMr : ℕ} (h : NP ∈ [9, 11, 12]) (ha1 : 1 ≤ NMa) (hr1 : 1 ≤ NMr) {a L : ℝ} (ha0 : 0 < a) (hL : 0 < L)
    {wa : Fin (NC.npts NP NMa) → ℝ} {wr : Fin (NC.npts NP NMr) → ℝ} (ha : NC.Returns NP NMa (.ok wa))
    (hr : NC.Returns NP NMr (.ok wr)) :
    ∃ (phi : (mkGrid NP NMa NMr a L wa wr).Fld) (x : ℝ),
      (mkGrid NP NMa NMr a L wa wr).integrate (.d1 fun k => phi k ^ 2) = .num x ∧ x < 0 := by
  obtain ⟨pa, pr⟩ := prefactor_pos (NP := NP) (NMa := NMa) (NMr := NMr) hL
  have hN : 9 ≤ NP := by fin_cases h <;> omega
  have big : ∀ m, 1 ≤ m → 2 < NC.npts NP m := fun m hm => by
    have := Nat.mul_le_mul_left (NP - 1) hm
    unfold NC.npts
    omega
  have l1 := big NMa ha1
  have l2 := big NMr hr1
  have hlt : 2 < NC.npts NP NMa * NC.npts NP NMr := lt_of_lt_of_le l2 (Nat.le_mul_of_pos_left _ (by omega))
  let k2 : Fin (NC.npts NP NMa * NC.npts NP NMr) := ⟨2, hlt⟩
  refine ⟨fun k => if k = k2 then 1 else 0, _, rfl, ?_⟩
  have hw := (C04_positive a L ha0 hL k2).1
  have hwi : wiFlat wa wr k2 < 0 := by
    refine mul_neg_of_pos_of_neg ((ha.neg h ha1).1 _ ?_) ((hr.neg h hr1).2 _ ?_)
    · exact Nat.div_eq_of_lt l2
    · exact Nat.mod_eq_of_lt l2
  have hp := Real.pi_pos
  have e : ∑ k, wiFlat wa wr k * w (NC.npts NP NMa) (NC.npts NP NMr) a L k * (if k = k2 then (1 : ℝ) else 0) ^ 2 =
      wiFlat wa wr k2 * w (NC.npts NP NMa) (NC.npts NP NMr) a L k2 := by
    rw [Finset.sum_eq_single k2]
    · simp
    · intro k _ hk; simp [hk]
    · intro hc; exact absurd (Finset.mem_univ k2) hc
  refine lt_of_eq_of_lt (congrArg _ e) ?_
  exact mul_neg_of_pos_of_neg (by positivity) (mul_neg_of_neg_of_pos hwi hw)

/-- The grids exist: five-point blocks (positive) and nine-point blocks (negative). -/
example : (∃ wa : Fin (NC.npts 5 3) → ℝ, NC.Returns 5 3 (.ok wa)) ∧ ∃ wa : Fin (NC.npts 9 2) → ℝ, NC.Returns 9 2 (.ok wa) := by
  constructor
  · obtain ⟨r, hr⟩ := NC_returns 5 3
    obtain ⟨wi, rfl, -⟩ := C07_composite_partial (N := 5) (Nm := 3) (by norm_num) (by norm_num) (Or.inl (by norm_num)) hr
    exact ⟨wi, hr⟩
  · obtain ⟨r, hr⟩ := NC_returns 9 2
    obtain ⟨wi, rfl, -⟩ := C07_composite_partial (N := 9) (Nm := 2) (by norm_num) (by norm_num) (Or.inl (by norm_num)) hr
    exact ⟨wi, hr⟩

end Verif
